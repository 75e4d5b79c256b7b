#!/usr/bin/env python3
"""Write lean/Verif/Lemmas/AESProbeData.lean: certificates about the AND gates of the last S-boxes of aes128_with_ks.txt.

Usage: lastbox.py CIRCUIT LEANDIR.  Nothing of this is trusted: the kernel checks the certificates in Verif.Lemmas.AESProbe."""
import re
import sys

CIRC, LEAN = sys.argv[1:3]
L = open(CIRC).read().split('\n')
ng, nw = map(int, L[0].split())
gates = []
for l in L[2:]:
    t = l.split()
    if t:
        n = int(t[0])
        gates.append((t[-1], list(map(int, t[2:2 + n])), int(t[2 + n])))
prod = {g[2]: k for k, g in enumerate(gates)}
src = open(LEAN + '/Verif/Lemmas/AESCertData.lean').read()
encIn = int(re.search(r'def encIn : Nat :=\s*(0x[0-9a-f]+)', src).group(1), 16)
IN = [(encIn >> (16 * i)) & 65535 for i in range(1280)]
model = open(LEAN + '/Verif/Model/GarblerKey.lean').read()


def table(name):
    return eval(re.search(r'def %s : List \S+ :=\s*(\[[^:]*?\])\s*\n\n' % name, model, re.S).group(1))


last = table('lastGates')
where = {g: p for p, g in enumerate(last)}
m, gm = {}, []
for i, (op, ins, o) in enumerate(gates):
    if op == 'AND':
        assert all(m.get(x, 0) == 0 for x in ins)
        v = 1 << where[i] if i in where else 0
    elif op == 'XOR':
        v = m.get(ins[0], 0) ^ m.get(ins[1], 0)
    else:
        v = m.get(ins[0], 0)
    m[o] = v
    gm.append(v)
first = min(i for i in range(ng) if gm[i])


def field(v):
    if v == 0:
        return 0
    s = ((v & -v).bit_length() - 1) // 8
    assert v >> (8 * s) < 256
    return (v >> (8 * s)) + 256 * s


def cert(vs, ts):
    order, seen = [], set(vs)

    def go(w):
        if w in seen:
            return
        seen.add(w)
        op, ins, _ = gates[prod[w]]
        for x in ins:
            go(x)
        order.append(prod[w])
    for t in ts:
        go(t)
    pos = {w: len(vs) - 1 - v for v, w in enumerate(vs)}
    k, code = len(vs), 0
    for n, gi in enumerate(order):
        op, ins, o = gates[gi]
        code |= (gi | (k - 1 - pos[ins[0]]) << 16 | (0 if op == 'INV' else k - 1 - pos[ins[1]]) << 32) << (48 * n)
        pos[o] = k
        k += 1
    tpos = sum((k - 1 - pos[t]) << (16 * i) for i, t in enumerate(ts))
    return len(order), max(1, (len(order) - 1).bit_length()), code, tpos


def tree(xs):
    if len(xs) == 1:
        return '(.leaf %s)' % xs[0]
    return '(.node %s %s)' % (tree(xs[0::2]), tree(xs[1::2]))


fs = [field(v) for v in gm[first:]]
fs += [0] * (16 * 256 - len(fs))
chunks = [hex(sum(v << (16 * i) for i, v in enumerate(fs[256 * k:256 * k + 256]))) for k in range(16)]
n, d, code, tpos = cert(IN[128 * 9:128 * 10], [gates[g][1][1] for g in last])
out = '''import Verif.Lemmas.AESCertData

/-! Certificates for the last S-boxes of the cipher circuit, written by `tools/lastbox.py`; they are checked in `AESProbe`. -/

namespace Verif.Lemmas.AESProbe
open Verif.Lemmas.AESCert Verif.Lemmas.Bristol

/-- The first gate that gets something from the gates of `lastGates`. -/
def firstGate : Nat := %d

/-- Which of the gates of `lastGates` the output of gate `firstGate + i` contains: eight bits for an S-box, then the number of the S-box. -/
def carryTab : Tree :=
  %s

/-- The second operands of the gates of `lastGates` from the inputs of the S-boxes. -/
def argCert : Cert :=
  ⟨%d, %d, %s, %s⟩

end Verif.Lemmas.AESProbe
''' % (first, tree(chunks), n, d, hex(code), hex(tpos))
open(LEAN + '/Verif/Lemmas/AESProbeData.lean', 'w').write(out)
