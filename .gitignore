lean/.lake/
.lake/
tools/__pycache__/
