"""setstatus.py Cnn status note: record the status of a property for mkmanifest.py."""
import json, sys
p = '/verif/tools/status.json'
d = json.load(open(p))
d[sys.argv[1]] = [sys.argv[2], sys.argv[3]]
json.dump(d, open(p, 'w'), indent=1)
