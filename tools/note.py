"""note.py ID [status] note  -- set the manifest note of a property."""
import json,sys
f='/verif/tools/notes.json'; d=json.load(open(f))
a=sys.argv[1:]
d[a[0]]={"note":a[-1]} if len(a)==2 else {"status":a[1],"note":a[2]}
json.dump(d,open(f,'w'),indent=1,ensure_ascii=False)
