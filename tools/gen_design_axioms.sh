#!/bin/sh
# Regenerates section 7 of DESIGN.md.
cd "$(dirname "$0")/.."
python3 - <<'P'
import subprocess
s=open('DESIGN.md').read()
i=s.index('## 7. Axioms')
s=s[:i]+'## 7. Axioms\n\n'+subprocess.run(['python3','tools/axioms.py'],capture_output=True,text=True).stdout
open('DESIGN.md','w').write(s)
P
