#!/usr/bin/env python3
"""usage: note.py C12 "text" [status]  -- set the note of a claim"""
import sys,os,json
f=os.path.join(os.path.dirname(os.path.abspath(__file__)),"notes.json")
d=json.load(open(f))
e=d.setdefault(sys.argv[1],{})
e["note"]=sys.argv[2]
if len(sys.argv)>3: e["status"]=sys.argv[3]
json.dump(d,open(f,'w'),indent=1)
