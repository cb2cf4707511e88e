#!/usr/bin/env python3
# Writes /verif/MANIFEST.json
import json
C=[]
def c(p,status,theorems,note=""): C.append(dict(property=p,status=status,theorems=["Verif.Props."+t for t in theorems],note=note))
exec(open('/verif/tools/claims.py').read())
json.dump({"claims":C},open('/verif/MANIFEST.json','w'),indent=1)
print(len(C))
