#!/usr/bin/env python3
"""Translate the tokens of a nibble! invocation in /repo to a Lean list of tokens (`Chomp.Tok`).

usage: gen_grammar.py <rust file> <lean name>
Prints Lean source. The tokenisation is that of Rust for the tokens that occur: identifiers, string
literals with escapes, parentheses, single punctuation characters, line comments."""
import sys, re

def body(src):
    m = re.search(r'nibble!\s*\{', src)
    i = m.end(); depth = 1; j = i
    instr = False
    while depth:
        c = src[j]
        if instr:
            if c == '\\': j += 1
            elif c == '"': instr = False
        elif c == '"': instr = True
        elif c == '{': depth += 1
        elif c == '}': depth -= 1
        j += 1
    return src[i:j-1], src[:i].count('\n') + 1, src[:j].count('\n') + 1

def unescape(s):
    out = []; i = 0
    while i < len(s):
        if s[i] != '\\': out.append(ord(s[i])); i += 1; continue
        c = s[i+1]
        if c == 'x': out.append(int(s[i+2:i+4], 16)); i += 4
        elif c == 'u':
            k = s.index('}', i); out.append(int(s[i+3:k], 16)); i = k + 1
        else: out.append({'n':10,'r':13,'t':9,'0':0,'\\':92,'"':34,"'":39}[c]); i += 2
    return out

def lexs(s):
    toks = []; i = 0
    while i < len(s):
        c = s[i]
        if c.isspace(): i += 1; continue
        if s.startswith('//', i): i = s.index('\n', i); continue
        m = re.match(r'[A-Za-z_][A-Za-z0-9_]*', s[i:])
        if m: toks.append(('id', m.group())); i += m.end(); continue
        if c == '"':
            j = i + 1
            while s[j] != '"': j += 2 if s[j] == '\\' else 1
            toks.append(('str', unescape(s[i+1:j]))); i = j + 1; continue
        toks.append((c, None)); i += 1
    return toks

def tree(toks):
    out = []
    while toks:
        k, v = toks.pop(0)
        if k == ')': return out
        if k == '(': out.append(('group', tree(toks)))
        else: out.append((k, v))
    return out

def ch(n): return "'%s'" % chr(n) if 32 <= n < 127 and chr(n) not in "'\\" else "Char.ofNat 0x%x" % n
def lean(t):
    k, v = t
    if k == 'id': return '.ident false "%s"' % v
    if k == 'str': return '.str [%s]' % ', '.join(ch(n) for n in v)
    if k == 'group': return '.group true [%s]' % ', '.join(map(lean, v))
    return ".punct '%s'" % k

def stmts(ts):
    out = [[]]
    for t in ts:
        out[-1].append(t)
        if t[0] == ';': out.append([])
    return [s for s in out if s]

def wrap(s, ind, width=116):
    out = []; line = ind
    for w in re.split(r"(?<=,) (?=[.(])", s):
        if len(line) + len(w) > width: out.append(line.rstrip()); line = ind
        line += w + ' '
    out.append(line.rstrip())
    return '\n'.join(out)

if __name__ == '__main__':
    path, name = sys.argv[1:]
    b, l0, l1 = body(open(path).read())
    ts = tree(lexs(b))
    rel = path.replace('/repo/', '')
    print("import Verif.Nibble.Syntax\n\n/-! Generated by `tools/gen_grammar.py` from `/repo/%s`. -/\n\nnamespace Chomp\n" % rel)
    print("/-- `%s:%d-%d`: the tokens of the argument of `nibble!`. -/" % (rel, l0, l1))
    print("def %s : List Tok :=" % name)
    parts = []
    for s in stmts(ts):
        parts.append(wrap('[' + ', '.join(map(lean, s)) + ']', '    '))
    print('  List.flatten [\n' + ',\n'.join(parts) + ']')
    print("\nend Chomp")
