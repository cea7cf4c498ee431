#!/usr/bin/env python3
"""Replay the `test_captures` and `glob_match` assertions of crates/mitex-glob/src/lib.rs on the model (Model/GlobCapture).  Run in /verif/lean."""
import re, subprocess, json
src = open('/repo/crates/mitex-glob/src/lib.rs').read()
src = re.sub(r'//[^\n]*', lambda m: m.group(0) if '"' in m.group(0) and 'assert' not in m.group(0) else '', src)
lit = r'"((?:[^"\\]|\\.)*)"'
out = ['import Verif.Model.GlobCapture', 'open Mitex.Glob',
       'def sl (t : Mitex.Text) (c : Capture) : List Nat := ((bytes t).take c.2).drop c.1',
       'def cap (g p : String) : Option (List (List Nat)) := match matchCaptures 20000 g.toList p.toList with | .ok (some cs) => some (cs.map (sl p.toList)) | _ => none',
       'def full (g p : String) : Option Bool := match matchFull 20000 g.toList p.toList with | .ok b => some b | _ => none']
n = 0
for m in re.finditer(r'assert_eq!\(\s*test_captures\(\s*' + lit + r',\s*' + lit + r'\s*,?\s*\),\s*(None|Some\(vec!\[(.*?)\]\))\s*,?\s*\)', src, re.S):
    g, p, r, l = m.groups()
    exp = 'none' if r == 'None' else 'some ([' + ', '.join(f'"{x}"' for x in re.findall(lit, l)) + '].map (fun s : String => bytes s.toList))'
    out.append(f'#eval if cap "{g}" "{p}" = ({exp}) then "ok" else "BAD captures {g} {p}"'); n += 1
k = 0
for m in re.finditer(r'assert!\(\s*(!?)glob_match\(\s*' + lit + r',\s*' + lit + r'\s*,?\s*\)\s*,?\s*\)', src, re.S):
    neg, g, p = m.groups()
    out.append(f'#eval if full "{g}" "{p}" = some {"false" if neg else "true"} then "ok" else "BAD match {g} {p}"'); k += 1
open('/tmp/captures.lean', 'w').write('\n'.join(out) + '\n')
r = subprocess.run(['lake', 'env', 'lean', '/tmp/captures.lean'], capture_output=True, text=True).stdout
print(n, 'captures', k, 'matches;', r.count('"ok"'), 'ok')
print('\n'.join(l for l in r.split('\n') if 'BAD' in l or 'error' in l))
