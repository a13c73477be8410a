#!/usr/bin/env python3
"""Writes lean/Verif/Proofs/ExampleSchema.lean from /repo/examples/schema.txt (the derivation that it is a schema file)."""
import sys
src = open('/repo/examples/schema.txt', encoding='latin-1').read()
SPECIAL = "()*+-.[]\\^{}|<>?"
ESC = {'t': (9, '.tab'), 'n': (10, '.newline'), 'v': (11, '.verticalTab'), 'f': (12, '.formFeed'), 'r': (13, '.carriageReturn')}
L = lambda s: '[' + ', '.join(str(ord(c)) for c in s) + ']'
D = lambda s: '[' + ', '.join(s) + ']'
class P:
    """recursive descent; every result is (pattern term, proof term of Written at its level)"""
    def __init__(s, t): s.t = t; s.i = 0
    def peek(s, n=1): return s.t[s.i:s.i+n]
    def eat(s, x):
        assert s.peek(len(x)) == x, (s.t, s.i, x); s.i += len(x)
    def char(s):
        c = s.peek()
        if c == '\\':
            d = s.t[s.i+1]; s.i += 2
            if d in ESC: return str(ESC[d][0]), f'(.char {ESC[d][1]})'
            assert d in SPECIAL, d
            return str(ord(d)), f'(esc {ord(d)} (by decide))'
        s.i += 1
        assert c not in SPECIAL
        return str(ord(c)), f'(pl {ord(c)} (by decide))'
    def literal(s):
        if s.peek(3) == '(?<':
            s.eat('(?<'); j = s.t.index('>', s.i); n = s.t[s.i:j]; s.i = j + 1
            p, h = s.seq(); s.eat(')')
            return f'(.capture {p} ⟨CAPPOS, asString {L(n)}⟩)', f'(.capture (n := {L(n)}) (by decide) {h})'
        if s.peek() == '(':
            s.eat('('); p, h = s.seq(); s.eat(')')
            return p, f'(.parens {h})'
        v, h = s.char(); return f'(.lit {v})', h
    def cls(s):
        s.eat('['); neg = False; items = []; h = None
        if s.peek() == '^': s.eat('^'); neg = True; h = '.openedHat'
        while s.peek() != ']':
            if s.peek(2) == '\\d': s.eat('\\d'); it = '.digit'; hi = '.itemDigit'
            elif s.peek(2) == '\\s': s.eat('\\s'); it = '.space'; hi = '.itemSpace'
            else:
                a, ha = s.char()
                if s.peek() == '-':
                    s.eat('-'); b, hb = s.char(); it = f'.range {a} {b}'; hi = f'(.itemRange {ha} {hb})'
                else: it = f'.lit {a}'; hi = f'(.itemChar {ha})'
            h = f'(.opened {hi})' if h is None else f'(.more {h} {hi})'
            items.append(it)
        s.eat(']')
        return f'(.cls {str(neg).lower()} [{", ".join(items)}])', f'(.closed {h})'
    def single(s):
        if s.peek() == '[': return s.cls()
        if s.peek() == '.': s.eat('.'); return '.wild', '.wild'
        if s.peek(2) == '\\d': s.eat('\\d'); return '.digit', '.digit'
        if s.peek(2) == '\\s': s.eat('\\s'); return '.space', '.space'
        p, h = s.literal(); return p, f'(.ofLiteral {h})'
    def choice(s):
        p, h = s.single()
        if s.peek() == '*': s.eat('*'); p, h = f'(.star {p})', f'(.ofRepeated (.star {h}))'
        elif s.peek() == '+': s.eat('+'); p, h = f'(.plus {p})', f'(.ofRepeated (.plus {h}))'
        elif s.peek() == '{':
            s.eat('{'); j = s.t.index('}', s.i); b = s.t[s.i:j].split(','); s.i = j + 1
            if len(b) == 1: p, h = f'(.exact {p} {D(b[0])})', f'(.ofRepeated (.exact (n := {D(b[0])}) {h} (by decide)))'
            else: p, h = f'(.range {p} {D(b[0])} {D(b[1])})', f'(.ofRepeated (.range (n := {D(b[0])}) (m := {D(b[1])}) {h} (by decide) (by decide)))'
        else: h = f'(.ofSingle {h})'
        while s.peek() == '|':
            s.eat('|'); q, hq = s.literal(); p, h = f'(.or {p} {q})', f'(.or {h} {hq})'
        return p, h
    def seq(s):
        p, h = s.choice(); h = f'(.ofChoice {h})'
        while s.i < len(s.t) and s.peek() != ')':
            q, hq = s.choice(); p, h = f'(.cat {p} {q})', f'(.cat {h} {hq})'
        return p, h
out = []
w = out.append
w('''import Verif.Spec.SchemaText
/-
The file examples/schema.txt, as an instance of the theorems about schema files.  Written by tools/example_schema.py.
-/
namespace LogSurgeon.ExampleSchema

instance (c : Nat) : Decidable (AlphaNum c) := by unfold AlphaNum; infer_instance
instance (c : Nat) : Decidable (Plain c) := by unfold Plain; infer_instance
instance (c : Nat) : Decidable (Special c) := by unfold Special; infer_instance
instance (n : List Nat) : Decidable (IsName n) := by unfold IsName; infer_instance
instance (n : List Nat) : Decidable (IsNumeral n) := by unfold IsNumeral; infer_instance

theorem pl {k : Nat} (c : Nat) (h : Plain c) : Written .literal k [c] (.lit c) := .char (.plain h)
theorem recast {l : Level} {k : Nat} {w w' : List Nat} {p p' : Pat} (h : Written l k w p) (e : w = w' := by decide +kernel) (e' : p = p' := by decide +kernel) :
    Written l k w' p' := e ▸ e' ▸ h
theorem recasts {k : Nat} {w w' : List Nat} {p p' : List Nat} (h : WrittenChars k w p) (e : w = w' := by decide +kernel) (e' : p = p' := by decide +kernel) :
    WrittenChars k w' p' := e ▸ e' ▸ h
theorem esc {k : Nat} (c : Nat) (h : Special c) : Written .literal k [92, c] (.lit c) := .char (.escaped h)
''')
lines = src.split('\n')
pos = 0
steps = []; vars_ = []; delims = []
for n, l in enumerate(lines):
    if l == '': steps.append((n, 'blank'))
    elif l.startswith('//'):
        steps.append((n, 'line'))
        w(f'/-- line {n+1} -/\ndef t{n} : List Nat := {L(l[2:])}')
        w(f'theorem l{n} {{k : Nat}} : WrittenLine k (chars [47, 47] ++ lexemes t{n}) {{}} := .comment (by decide +kernel) (by decide +kernel)\n')
    elif l.startswith('delimiters:'):
        steps.append((n, 'line'))
        body = l[11:]; p = P(body); cs = []; h = None
        while p.i < len(body):
            v, hv = p.char(); cs.append(v); h = f'(.one {hv})' if h is None else f'(.snoc {h} {hv})'
        w(f'/-- line {n+1} -/\ndef t{n} : List Nat := {L(body)}')
        w(f'theorem l{n} {{k : Nat}} : WrittenLine k (.delimiters :: chars (58 :: t{n})) {{ delims := [[{", ".join(cs)}]] }} := by\n  have h : WrittenChars (k + 11) _ _ := {h}\n  exact .delims (recasts h)\n')
        delims.append(f'[{", ".join(cs)}]')
    else:
        steps.append((n, 'line'))
        name, body = l.split(':', 1)
        p = P(body); pt, h = p.seq(); assert p.i == len(body)
        w(f'/-- line {n+1} -/\ndef t{n} : List Nat := {L(body)}')
        cap = 'CAPPOS' in pt
        off = body.index('(?<') if cap else 0
        w(f'def p{n}{" (k : Nat)" if cap else ""} : Pat := {pt.replace("CAPPOS", "k")}')
        args = "" if not cap else f" {pos + len(name) + 1 + off}"
        kk = f"{pos + len(name) + 1}" if cap else "k"
        w(f'theorem w{n} {"" if cap else "{k : Nat} "}: Written .seq {kk} t{n} (p{n}{args}) := by\n  have h : Written .seq {kk} _ _ := {h}\n  exact recast h')
        h = f'w{n}'
        if cap:
            w(f'theorem l{n} : WrittenLine {pos} (chars (List.replicate 0 32 ++ {L(name)} ++ 58 :: t{n})) {{ vars := [(asString {L(name)}, p{n} {pos + len(name) + 1 + off})] }} :=\n  .var (by decide) {h}\n')
            vars_.append(f'(asString {L(name)}, p{n} {pos + len(name) + 1 + off})')
        else:
            w(f'theorem l{n} {{k : Nat}} : WrittenLine k (chars (List.replicate 0 32 ++ {L(name)} ++ 58 :: t{n})) {{ vars := [(asString {L(name)}, p{n})] }} :=\n  .var (by decide) {h}\n')
            vars_.append(f'(asString {L(name)}, p{n})')
    pos += len(l) + 1
open('/tmp/gen_state.txt', 'w').write(repr((steps, vars_, delims)))
# the file
w('/-- /repo/examples/schema.txt -/\ndef file : List Nat :=\n  ' + ' ++ 10 ::\n  ('.join(
    '[]' if l == '' else (f'[47, 47] ++ t{n}' if l.startswith('//') else (f'delimitersWord ++ 58 :: t{n}' if l.startswith('delimiters:') else f'{L(l.split(":",1)[0])} ++ 58 :: t{n}'))
    for n, l in enumerate(lines)) + ')' * (len(lines) - 1) + '\n')
w('/-- What it content. -/\ndef content : SchemaText :=\n  { vars := [' + ',\n      '.join(vars_) + '],\n    delims := [' + ', '.join(delims) + '] }\n')
term = None
for n, k in steps:
    if term is None: term = f'.first l{n}'
    elif k == 'blank': term = f'.blank ({term}) (.inl rfl)'
    else: term = f'.line ({term}) (.inl rfl) l{n}'
def units(n, l):
    if l == '': return None
    if l.startswith('//'): return f'(chars [47, 47] ++ lexemes t{n})'
    if l.startswith('delimiters:'): return f'(.delimiters :: chars (58 :: t{n}))'
    return f'(chars (List.replicate 0 32 ++ {L(l.split(":",1)[0])} ++ 58 :: t{n}))'
# prove in steps
w('/-- The units of the first `n` lines. -/')
prev = None; prevv = '[]'; prevd = '[]'
names = {}
import itertools
vi = 0; di = 0
for n, k in steps:
    l = lines[n]
    u = units(n, l)
    if prev is None:
        w(f'def u{n} : List Lexeme := {u}'); d = 'l%d' % n
        w(f'theorem f{n} : WrittenFile 0 u{n} {{}} := .first l{n}')
    else:
        if k == 'blank':
            w(f'def u{n} : List Lexeme := u{prev} ++ chars [10]')
            prf = f'.blank f{prev} (.inl rfl)'
        else:
            w(f'def u{n} : List Lexeme := u{prev} ++ chars [10] ++ {u}')
            cap = l.startswith('capture')
            if cap: prf = f'by\n  have e : 0 + (textOf (u{prev} ++ chars [10])).length = {sum(len(x)+1 for x in lines[:n])} := by decide +kernel\n  have h := l{n}\n  rw [← e] at h\n  exact .line f{prev} (.inl rfl) h'
            else: prf = f'.line f{prev} (.inl rfl) l{n}'
        if u is not None and l.startswith('delimiters:'): di += 1
        elif u is not None and not l.startswith('//'): vi += 1
        w(f'theorem f{n} : WrittenFile 0 u{n} {{ vars := content.vars.take {vi}, delims := content.delims.take {di} }} := {prf}')
    prev = n
last = prev
w(f'''
theorem file_units : lexemes file = u{last} := by decide +kernel

theorem file_written : WrittenFile 0 (lexemes file) content := by
  rw [file_units]
  exact f{last}
''')
w('end LogSurgeon.ExampleSchema')
open('/verif/lean/Verif/Proofs/ExampleSchema.lean', 'w').write('\n'.join(out) + '\n')
