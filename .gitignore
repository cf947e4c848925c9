lean/.lake/
lean/build/
__pycache__/
lean/lake-manifest.json
