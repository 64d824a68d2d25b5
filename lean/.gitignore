.lake/
