#!/usr/bin/env python3
"""Generate a Lean file that runs the model on the spec fixtures of /repo/tests/fixtures.

Usage: python3 gen.py > /tmp/fix.lean; cd /verif/lean && lake env lean /tmp/fix.lean
This is a test of the model's fidelity, not a proof; nothing in lean/ depends on it."""
import json, glob
class Num(str): pass
def load(p):
    return json.load(open(p), parse_int=Num, parse_float=Num, object_pairs_hook=lambda kv: ('o', kv))
def get(o, k, d=None):
    for a, b in o[1]:
        if a == k: return b
    return d
def q(s):
    out = '"'
    for ch in s:
        o = ord(ch)
        if ch in '"\\': out += '\\' + ch
        elif ch == '\n': out += '\\n'
        elif ch == '\t': out += '\\t'
        elif ch == '\r': out += '\\r'
        elif o < 32: out += '\\x%02x' % o
        else: out += ch
    return out + '"'
def js(v):
    if v is None: return '(.prim .null)'
    if v is True: return '(.prim (.bool true))'
    if v is False: return '(.prim (.bool false))'
    if isinstance(v, Num): return '(n %s)' % q(str(v))
    if isinstance(v, str): return '(s %s)' % q(v)
    if isinstance(v, list): return '(.arr [%s])' % ', '.join(js(x) for x in v)
    return '(.obj [%s])' % ', '.join('(%s.toList, %s)' % (q(k), js(x)) for k, x in v[1])
print('''import Verif.Model.Api
import Verif.Model.Float64
open Toon
abbrev J := Json B64
def s (x : String) : J := .prim (.str x.toList)
def n (x : String) : J := .prim (.num (((B64.parse x.toList).map fun y => if y.units = 0 then B64.zeroB false else y).getD (B64.infB false)))
partial def beq : J → J → Bool
  | .prim p, .prim q => p == q
  | .arr a, .arr b => a.length == b.length && (a.zip b).all fun (x, y) => beq x y
  | .obj a, .obj b => a.length == b.length && a.all fun (k, x) => b.any fun (l, y) => k == l && beq x y
  | _, _ => false
def enc (name : String) (v : J) (o : EncOpts) (e : String) : IO Unit := do
  let got := String.ofList (encode o v)
  if got != e then IO.println s!"FAIL enc {name}: got {repr got}, expected {repr e}"
def dec (name : String) (i : String) (o : DecOpts) (v : J) : IO Unit := do
  match (Toon.decode o i.toList : Except Err J) with
  | .ok r => if !(beq r v) then IO.println s!"FAIL dec {name}: wrong value {repr (String.ofList (encode defaultEnc r))}"
  | .error e => IO.println s!"FAIL dec {name}: error {repr e}"
def decErr (name : String) (i : String) (o : DecOpts) : IO Unit := do
  match (Toon.decode o i.toList : Except Err J) with
  | .ok r => IO.println s!"FAIL dec {name}: expected error, got {repr (String.ofList (encode defaultEnc r))}"
  | .error _ => pure ()
''')
cnt = 0
body = []
for p in sorted(glob.glob('/repo/tests/fixtures/spec/encode/*.json')):
    for t in get(load(p), 'tests'):
        o = get(t, 'options') or ('o', [])
        body.append('  enc %s %s {indent := %s, delim := (%s.toList.head!), fold := %s, flattenDepth := %s} %s' % (
            q(get(t, 'name')), js(get(t, 'input')), get(o, 'indent', '2'), q(get(o, 'delimiter', ',')),
            'true' if get(o, 'keyFolding') == 'safe' else 'false', get(o, 'flattenDepth', '18446744073709551615'), q(get(t, 'expected'))))
for p in sorted(glob.glob('/repo/tests/fixtures/spec/decode/*.json')):
    for t in get(load(p), 'tests'):
        o = get(t, 'options') or ('o', [])
        strict = get(o, 'strict', True)
        do = '{indent := %s, strict := %s, expand := %s}' % (get(o, 'indent', '2'), 'true' if strict else 'false', 'true' if get(o, 'expandPaths') == 'safe' else 'false')
        if get(t, 'shouldError'):
            body.append('  decErr %s %s %s' % (q(get(t, 'name')), q(get(t, 'input')), do))
        else:
            body.append('  dec %s %s %s %s' % (q(get(t, 'name')), q(get(t, 'input')), do, js(get(t, 'expected'))))
# many small defs: one big do block is slow to elaborate
for i, b in enumerate(body):
    print('def t%d : IO Unit := do\n%s' % (i, b))
print('#eval do')
for i in range(len(body)): print('  t%d' % i)
print('  IO.println "ran %d fixtures"' % len(body))
