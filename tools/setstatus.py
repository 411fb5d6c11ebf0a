"""setstatus.py ID STATUS NOTE: record status and note of a property in tools/status.json."""
import json, sys, os
p = os.path.join(os.path.dirname(os.path.abspath(__file__)), "status.json")
d = json.load(open(p))
d[sys.argv[1]] = dict(status=sys.argv[2], note=sys.argv[3])
json.dump(d, open(p, "w"), indent=1, ensure_ascii=False)
