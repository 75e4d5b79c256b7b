#!/usr/bin/env python3
"""Transcribe the two AES circuit files into Lean and produce the certificates of `Lemmas/AESCert.lean`.

usage: circuits.py [REPO] [--check]

Without --check, writes lean/Verif/Model/AESCircuitData.lean (the gates, nothing else) and
lean/Verif/Lemmas/AESCertData.lean (the certificates; these are not trusted, the kernel checks them).
With --check, compares the gates in AESCircuitData.lean with the text files and with the strings of the *_data.cpp files.

The circuit files are read as text; nothing of the repository is built or run.
"""
import os, random, re, sys

HERE = os.path.dirname(os.path.abspath(__file__))
LEAN = os.path.join(HERE, '..', 'lean', 'Verif')
args = [a for a in sys.argv[1:] if not a.startswith('--')]
REPO = args[0] if args else '/repo'
DIR = os.path.join(REPO, 'cipher', 'circuit_files')
OPC = {'AND': 0, 'XOR': 1, 'INV': 2}
random.seed(1)


def parse(text):
    tok = text.split()
    ng, nw, n1, n2, n3 = map(int, tok[:5])
    p, gates = 5, []
    for _ in range(ng):
        nin, nout = int(tok[p]), int(tok[p + 1])
        assert nout == 1 and nin in (1, 2)
        ws = list(map(int, tok[p + 2:p + 2 + nin]))
        o, op = int(tok[p + 2 + nin]), tok[p + 3 + nin]
        assert (op == 'INV') == (nin == 1)
        gates.append((OPC[op], ws[0], ws[1] if nin == 2 else 0, o))
        p += 4 + nin
    assert p == len(tok)
    return ng, nw, n1, n2, n3, gates


K = parse(open(os.path.join(DIR, 'aes128_ks.txt')).read())
E = parse(open(os.path.join(DIR, 'aes128_with_ks.txt')).read())


def chunks(gates, c=256):
    return [sum((op | a << 16 | b << 32 | o << 48) << (64 * k) for k, (op, a, b, o) in enumerate(gates[i:i + c]))
            for i in range(0, len(gates), c)]


DATA = os.path.join(LEAN, 'Model', 'AESCircuitData.lean')

if '--check' in sys.argv:
    src = open(DATA).read()
    vals = {m.group(1): int(m.group(2), 16) for m in re.finditer(r'def (\w+) : Nat :=\s+(0x[0-9a-f]+)', src)}
    for nm, c, f in (('ks', K, 'aes128_ks'), ('enc', E, 'aes128_with_ks')):
        lst = re.search(r'def %sChunks : List Nat :=\s+\[([^\]]*)\]' % nm, src).group(1).split(',')
        assert [vals[x.strip()] for x in lst] == chunks(c[5]), nm
        cpp = open(os.path.join(DIR, f + '_data.cpp')).read()
        strs = re.findall(r'"((?:[^"\\]|\\.)*)"', cpp[cpp.index('='):])
        raw = re.findall(r'R"[^(]*\((.*)\)[^)]*"', cpp, re.S)
        text = raw[0] if raw else ''.join(strs).replace('\\n', '\n')
        assert parse(text) == c, f
        print(nm, 'ok:', len(c[5]), 'gates')
    sys.exit(0)

# ---------------------------------------------------------------- gates

out = ['''/-!
The gates of the two circuit files, transcribed by `tools/circuits.py` (`--check` compares this file with the source).

A file is cut in chunks of 256 gates. Gate `i` of a chunk is the 64-bit field at bit `64 * i`: operation (0 `AND`, 1 `XOR`,
2 `INV`), first input wire, second input wire (0 for `INV`), output wire, 16 bits each, least significant first.
-/

namespace Verif.Model.AESCircuit
''']
for nm, c, f, n in (('ks', K, 'aes128_ks', 7236), ('enc', E, 'aes128_with_ks', 29062)):
    cs = chunks(c[5])
    for i, x in enumerate(cs):
        out.append('/-- `cipher/circuit_files/%s.txt:%d-%d`. -/\ndef %s%d : Nat :=\n  %s\n' %
                   (f, 4 + 256 * i, min(3 + 256 * (i + 1), n), nm, i, hex(x)))
    out.append('/-- The %d gates of `cipher/circuit_files/%s.txt:4-%d` (the same text is the string in\n'
               '`cipher/circuit_files/%s_data.cpp`). -/\ndef %sChunks : List Nat :=\n  [%s]\n' %
               (c[0], f, n, f, nm, ', '.join('%s%d' % (nm, i) for i in range(len(cs)))))
out.append('end Verif.Model.AESCircuit\n')
open(DATA, 'w').write('\n'.join(out))

# ---------------------------------------------------------------- AES, to locate the S-boxes


def xt(a):
    a <<= 1
    return a ^ 0x11b if a & 0x100 else a


def mul(a, b):
    r = 0
    while b:
        if b & 1:
            r ^= a
        a = xt(a)
        b >>= 1
    return r


def sb(x):
    inv = next((y for y in range(256) if mul(x, y) == 1), 0)
    r = 0
    for i in range(8):
        r |= ((inv >> i ^ inv >> ((i + 4) % 8) ^ inv >> ((i + 5) % 8) ^ inv >> ((i + 6) % 8) ^ inv >> ((i + 7) % 8)
               ^ 0x63 >> i) & 1) << i
    return r


S = [sb(x) for x in range(256)]


def expand(key):
    w = [list(key[4 * i:4 * i + 4]) for i in range(4)]
    rc = 1
    for i in range(4, 44):
        t = list(w[i - 1])
        if i % 4 == 0:
            t = [S[x] for x in t[1:] + t[:1]]
            t[0] ^= rc
            rc = xt(rc)
        w.append([a ^ b for a, b in zip(w[i - 4], t)])
    return [sum(w[4 * r:4 * r + 4], []) for r in range(11)]


def mix(s):
    return [xt(s[4 * c + i]) ^ xt(s[4 * c + (i + 1) % 4]) ^ s[4 * c + (i + 1) % 4] ^ s[4 * c + (i + 2) % 4]
            ^ s[4 * c + (i + 3) % 4] for c in range(4) for i in range(4)]


def enc_boxes(rk, m):
    s = [a ^ b for a, b in zip(m, rk[0])]
    ins, outs = [], []
    for r in range(1, 11):
        ins += s
        s = [S[x] for x in s]
        outs += s
        s = [s[(i + 4 * (i % 4)) % 16] for i in range(16)]
        if r < 10:
            s = mix(s)
        s = [a ^ b for a, b in zip(s, rk[r])]
    return ins, outs


def be(bs):
    return [(x >> (7 - j)) & 1 for x in bs for j in range(8)]


N = 400
ONES = (1 << N) - 1


def evalc(c, inp):
    w = [0] * c[1]
    w[:len(inp)] = inp
    for op, a, b, o in c[5]:
        w[o] = w[a] & w[b] if op == 0 else w[a] ^ w[b] if op == 1 else ONES ^ w[a]
    return w


def columns(rows):
    return [sum(r[i] << t for t, r in enumerate(rows)) for i in range(len(rows[0]))]


def rnd(n=16):
    return [random.randrange(256) for _ in range(n)]


def locate(c, rows, boxes, pick):
    d = {}
    for i, s in enumerate(evalc(c, columns(rows))):
        d.setdefault(s, []).append(i)
    return [d[x][pick] for x in columns(boxes)]


rows, bi, bo, krows, kbo = [], [], [], [], []
for _ in range(N):
    rk, msg, key = [rnd() for _ in range(11)], rnd(), rnd()
    words = [r[4 * i:4 * i + 4] for r in rk for i in range(4)]
    rows.append(be(sum((w[::-1] for w in words), [])) + be(msg)[::-1])
    i, o = enc_boxes(rk, msg)
    bi.append(be(i))
    bo.append(be(o))
    krows.append(be(key)[::-1])
    ek = expand(key)
    kbo.append(be([S[x] for r in range(10) for x in ek[r][13:16] + ek[r][12:13]]))
encIn, encOut = locate(E, rows, bi, 0), locate(E, rows, bo, 0)
ksOut = locate(K, krows, kbo, 0)

# ---------------------------------------------------------------- certificates

sys.setrecursionlimit(100000)


def producers(c):
    return {g[3]: i for i, g in enumerate(c[5])}


def cert(c, prod, vs, ts):
    """The gates from the wires vs (variable v at distance v from the top of the stack) to the wires ts."""
    order, seen = [], set(vs)

    def go(w):
        if w in seen:
            return
        seen.add(w)
        op, a, b, _ = c[5][prod[w]]
        go(a)
        if op != 2:
            go(b)
        order.append(prod[w])
    for t in ts:
        go(t)
    pos = {w: len(vs) - 1 - v for v, w in enumerate(vs)}
    k, code = len(vs), 0
    for n, gi in enumerate(order):
        op, a, b, o = c[5][gi]
        code |= (gi | (k - 1 - pos[a]) << 16 | (0 if op == 2 else k - 1 - pos[b]) << 32) << (48 * n)
        pos[o] = k
        k += 1
    tpos = sum((k - 1 - pos[t]) << (16 * i) for i, t in enumerate(ts))
    return len(order), code, tpos


def key_wire(i, b, j):
    return 32 * i + 8 * (3 - b) + j


def round_wires(r, base=0):
    return [base + key_wire(4 * r + i, b, j) for i in range(4) for b in range(4) for j in range(8)]


pe, pk = producers(E), producers(K)
encBox = [cert(E, pe, encIn[8 * s:8 * s + 8], encOut[8 * s:8 * s + 8]) for s in range(160)]
encLin = []
for r in range(11):
    vs = [1535 - v for v in range(128)] if r == 0 else encOut[128 * (r - 1):128 * r]
    ts = encIn[128 * r:128 * r + 128] if r < 10 else list(range(E[1] - 128, E[1]))
    encLin.append(cert(E, pe, vs + round_wires(r), ts))
base = K[1] - 1408
ksBox = [cert(K, pk, [base + key_wire(4 * r + 3, (k + 1) % 4, j) for j in range(8)],
              ksOut[32 * r + 8 * k:32 * r + 8 * k + 8]) for r in range(10) for k in range(4)]
ksLin = [cert(K, pk, [127 - v for v in range(128)], round_wires(0, base))]
for r in range(10):
    ksLin.append(cert(K, pk, round_wires(r, base) + ksOut[32 * r:32 * r + 32], round_wires(r + 1, base)))


def pack(xs, w=16):
    return hex(sum(x << (w * i) for i, x in enumerate(xs)))


def tree(xs):
    if len(xs) == 1:
        return '(.leaf %s)' % xs[0]
    return '(.node %s %s)' % (tree(xs[0::2]), tree(xs[1::2]))


def depth(n):
    return max(1, (n - 1).bit_length())


out = ['''import Verif.Lemmas.BristolCheck

/-!
Certificates for the AES circuits, written by `tools/circuits.py`; they are checked in `AESCert`.
-/

namespace Verif.Lemmas.AESCert
open Verif.Lemmas.Bristol Verif.Model.AESCircuit

/-- A certificate: number of steps, its logarithm, steps, positions of the targets. -/
structure Cert where
  n : Nat
  d : Nat
  code : Nat
  tpos : Nat
''']
for nm, c in (('ks', K), ('enc', E)):
    prod = producers(c)
    ps = [prod.get(w, 0) for w in range(c[1])]
    out.append('/-- The chunks of the circuit. -/\ndef %sTree : Tree :=\n  %s\n' %
               (nm, tree(['%s%d' % (nm, i) for i in range(len(chunks(c[5])))])))
    out.append('/-- The gate that writes a wire. -/\ndef %sProd : Tree :=\n  %s\n' %
               (nm, tree([pack(ps[i:i + 256]) for i in range(0, c[1], 256)])))
for nm, doc, xs in (('encIn', 'Input wires of the S-boxes of the cipher.', encIn),
                    ('encOut', 'Output wires of the S-boxes of the cipher.', encOut),
                    ('ksOut', 'Output wires of the S-boxes of the key schedule.', ksOut)):
    out.append('/-- %s -/\ndef %s : Nat :=\n  %s\n' % (doc, nm, pack(xs)))
for nm, doc, cs in (('encBox', 'S-boxes of the cipher.', encBox), ('encLin', 'Linear layers of the cipher.', encLin),
                    ('ksBox', 'S-boxes of the key schedule.', ksBox), ('ksLin', 'Linear layers of the key schedule.', ksLin)):
    out.append('/-- %s -/\ndef %s : List Cert := [\n  %s]\n' %
               (doc, nm, ',\n  '.join('⟨%d, %d, %s, %s⟩' % (n, depth(n), hex(code), hex(tp)) for n, code, tp in cs)))
out.append('end Verif.Lemmas.AESCert\n')
open(os.path.join(LEAN, 'Lemmas', 'AESCertData.lean'), 'w').write('\n'.join(out))
print('gates covered:', sum(c[0] for c in encBox + encLin), sum(c[0] for c in ksBox + ksLin))
