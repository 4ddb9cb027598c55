.lake/
lake-packages/
