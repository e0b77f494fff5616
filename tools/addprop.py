#!/usr/bin/env python3
"""usage: addprop.py < block   -- insert p(...) calls before the final writer in gen_properties.py"""
import sys,os
f=os.path.join(os.path.dirname(os.path.abspath(__file__)),"gen_properties.py")
s=open(f).read()
i=s.index('with open(os.path.join')
open(f,'w').write(s[:i]+sys.stdin.read()+s[i:])
