"""Set a status entry: st.py Cnn status note"""
import json, sys
p = '/verif/tools/status.json'
d = json.load(open(p))
d[sys.argv[1]] = [sys.argv[2], sys.argv[3]]
json.dump(dict(sorted(d.items())), open(p, 'w'), indent=1)
