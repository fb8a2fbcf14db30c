import json,sys,subprocess
# usage: addthm.py C30 thm1 thm2 ... : append theorem names to a claim
m={c['property']:c for c in json.load(open('/verif/MANIFEST.json'))['claims']}
p=sys.argv[1]; c=m[p]
c['theorems']=c['theorems']+[t for t in sys.argv[2:] if t not in c['theorems']]
subprocess.run(['python3','/verif/tools/claim.py'],input=json.dumps([c]),text=True,check=True)
