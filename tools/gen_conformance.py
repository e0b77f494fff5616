#!/usr/bin/env python3
"""Translates the REQUIREs of /repo/test/{access,resource,resource_user}.cpp into examples about the model
(lean/Verif/Conformance.lean). They are tests of the model, not proofs of properties."""
import re
R = "/repo/test/"
out = []

def lines(f):
    return open(R + f).read()

def requires(text):
    """(test case, line, expression, expected)"""
    case, pos = None, 0
    for m in re.finditer(r'TEST_CASE\("([^"]*)"\)|REQUIRE\(|using (\w+) = ([^;]*);', text):
        if m.group(1):
            case, aliases = m.group(1), {}
            continue
        if m.group(2):
            aliases[m.group(2)] = m.group(3)
            continue
        depth, i = 1, m.end()
        while depth:
            depth += {"(": 1, ")": -1}.get(text[i], 0)
            i += 1
        body = re.sub(r"\s+", " ", text[m.end():i - 1]).strip()
        e, v = body.rsplit("==", 1)
        yield case, text[:m.start()].count("\n") + 1, dict(aliases), e.strip(), v.strip()

def args(s):
    """splits at commas on the top level"""
    res, depth, cur = [], 0, ""
    for ch in s:
        if ch in "({<" : depth += 1
        if ch in ")}>" : depth -= 1
        if ch == "," and depth == 0:
            res.append(cur.strip()); cur = ""
        else:
            cur += ch
    if cur.strip(): res.append(cur.strip())
    return res

def policy(t, al):
    t = t.strip()
    if t in al: return policy(al[t], al)
    if t == "IOAccess": return ".io"
    if t == "AreaAccess": return ".area"
    m = re.match(r"FieldAccess<(\d+)>$", t)
    if m: return f"(fieldPolicy {m.group(1)})"
    m = re.match(r"(CombineAccess|ArrayAccess)<(.*)>$", t)
    a = args(m.group(2))
    op = {"And_t": ".and", "Or_t": ".or"}[a[-1]]
    if m.group(1) == "CombineAccess": return f"(.combine {policy(a[0], al)} {policy(a[1], al)} {op})"
    return f"(.array {policy(a[0], al)} {a[1]} {op})"

def value(e, al):
    """(type, Lean term)"""
    e = e.strip()
    m = re.match(r"IOAccess\{IOAccess::(\w+)\}$", e)
    if m: return "IOAccess", f"(Mode.{m.group(1)} : Acc .io)"
    m = re.match(r"AreaAccess\(\{(\d+), (\d+)\}\)$", e)
    if m: return "AreaAccess", f"(Area.mk {m.group(1)} {m.group(2)} : Acc .area)"
    m = re.match(r"(\w+(?:<\d+>)?)\((.*)\)$", e)
    t, inner = m.group(1), m.group(2).strip()
    if inner.startswith("{"):
        xs = [value(x, al) for x in args(inner[1:-1])]
        p = policy(xs[0][0], al)
        return t, f"(fun i => ([{', '.join(x[1] for x in xs)}] : List (Acc {p})).getD i.1 (Acc.dflt {p}) : Acc {policy(t, al)})"
    vs = [value(x, al)[1] for x in args(inner)]
    return t, f"(({', '.join(vs)}) : Acc {policy(t, al)})"

out.append('''import Verif.Model.ResourceUser
import Verif.Model.Guards
/-
The unit tests of the library, run on the model: every `REQUIRE` of /repo/test/access.cpp, /repo/test/resource.cpp and /repo/test/resource_user.cpp, with its line.
Generated by tools/gen_conformance.py. These are tests of the model (that it computes what the code is expected to compute), not proofs of properties.
-/
set_option linter.unusedSimpArgs false

namespace RG.Conformance
open RG RG.Dyn
''')
n = 0
last = None
for case, line, al, e, v in requires(lines("access.cpp")):
    if case != last:
        out.append(f"/-! ### access.cpp, {case} -/\n"); last = case
    m = re.match(r"(\w+(?:<\d+>)?)::is_serial\((.*)\)$", e)
    if m:
        a, b = [value(x, al) for x in args(m.group(2))]
        assert a[0] == b[0] == m.group(1)
        t = f"Acc.isSerial {policy(m.group(1), al)} {a[1]} {b[1]}"
    else:
        i = e.index(".is_superset_of(") if ".is_superset_of(" in e else e.index(" .is_superset_of(")
        a = value(e[:i].strip(), al); b = value(e[i + len(".is_superset_of("):-1], al)
        assert a[0] == b[0]
        t = f"Acc.isSuperset {policy(a[0], al)} {a[1]} {b[1]}"
    out.append(f"/-- line {line} -/\nexample : {t} = {v} := by decide\n"); n += 1

out.append('''/-! ### resource.cpp -/

/-- the class `Access` of resource.cpp:7-27; its `operator==` always is false there, which does not matter for `is_serial` -/
def always : Custom where
  n := 1
  serial _ _ := true
  sync _ := true
  superset _ _ := true
  eq _ _ := true
  dflt := 0
  serial_comm _ _ := rfl
  sync_serial _ _ _ _ _ := rfl
  superset_serial _ _ _ _ _ := rfl
  superset_refl _ := rfl
  superset_trans _ _ _ _ _ := rfl
  superset_antisymm a b _ _ := by omega
  eq_iff a b := ⟨fun _ => by omega, fun _ => rfl⟩
  dflt_sync := rfl
  dflt_superset _ := rfl

def a : Res := ⟨1, 0⟩
def b : Res := ⟨2, 0⟩

def acc (r : Res) : RAccess := ⟨.custom always, r, (0 : Fin 1)⟩
def read (r : Res) : RAccess := (AGuard.io r false).toAccess
def write (r : Res) : RAccess := (AGuard.io r true).toAccess
''')
def ra(e):
    m = re.match(r"(\w+)\.(read|write|make_access)\((?:Access\{\})?\)$", e)
    r = {"a2": "a"}.get(m.group(1), m.group(1))   # line 52: a copy of the resource has the same number
    return f"({ {'make_access': 'acc'}.get(m.group(2), m.group(2))} {r})"
for case, line, al, e, v in requires(lines("resource.cpp")):
    m = re.match(r"redGrapes::ResourceAccess::is_serial\((.*)\)$", e)
    x, y = [ra(z) for z in args(m.group(1))]
    out.append(f"/-- line {line} -/\nexample : RAccess.isSerial {x} {y} = {v} := by simp [RAccess.isSerial, acc, read, write, AGuard.toAccess, Acc.isSerial, always, a, b] <;> decide\n"); n += 1

text = lines("resource_user.cpp")
out.append("/-! ### resource_user.cpp -/\n")
for m in re.finditer(r"redGrapes::ResourceUser (f\d)\(\{(.*)\}\);", text):
    out.append(f"def {m.group(1)} : User := User.ofList 0 [{', '.join(ra(x) for x in args(m.group(2)))}]\n")
for case, line, al, e, v in requires(text):
    m = re.match(r"redGrapes::ResourceUser::is_serial\((\w+), (\w+)\)$", e)
    if m: t = f"{m.group(1)}.isSerial {m.group(2)}"
    else:
        m = re.match(r"(\w+)\.is_superset_of\((\w+)\)$", e)
        t = f"{m.group(1)}.isSuperset {m.group(2)}"
    out.append(f"/-- line {line} -/\nexample : {t} = {v} := by decide\n"); n += 1
out.append("end RG.Conformance")
open("/verif/lean/Verif/Conformance.lean", "w").write("\n".join(out) + "\n")
print(n, "requirements")
