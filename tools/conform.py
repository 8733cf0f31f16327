#!/usr/bin/env python3
"""Compare the operator definitions of lean/Verif/Model/{Uni,Add,Sub,Mul}.lean with the C++ text.

Both sides are parsed to expression trees (independently of the transcription):
  C++   every `T operator@(A const & a, B const & b) { ... }`, `reverse`, `oddverse`, `dirverse`,
        `dual` in /repo/include/g3ops*.hpp, local variables included;
  Lean  every `def` of these files, with its `let` bindings.
Braced initialisation `T{ .. }` and the anonymous constructor are both flattened to the list of
components; everything else (order of evaluation, names of operands, subscripts) must be equal.
Prints the overloads found on one side only, and those whose bodies differ.
"""
import re, sys, glob, os

REPO = sys.argv[1] if len(sys.argv) > 1 else '/repo'
HERE = os.path.join(os.path.dirname(os.path.abspath(__file__)), '..', 'lean', 'Verif', 'Model')
TYPES = ['double', 'Scalar', 'Vector', 'BiVector', 'TriVector', 'Spinor', 'ImSpin', 'ComPlex',
         'DirPlex', 'MultiVector']

ORDER = ['theSca', 'theVec', 'theBiv', 'theTri']
COMPONENTS = [(0, 0), (1, 0), (1, 1), (1, 2), (2, 0), (2, 1), (2, 2), (3, 0)]


class P:
    """Recursive descent over a token list; grammar common to both languages."""

    def __init__(s, toks, lean):
        s.t, s.i, s.lean = toks, 0, lean

    def peek(s):
        return s.t[s.i] if s.i < len(s.t) else None

    def eat(s, x):
        assert s.peek() == x, (x, s.t[max(0, s.i - 5):s.i + 5])
        s.i += 1

    def expr(s):
        e = s.term()
        while s.peek() in ('+', '-'):
            o = s.t[s.i]; s.i += 1
            e = (o, e, s.term())
        return e

    def term(s):
        e = s.unary()
        while s.peek() == '*':
            s.i += 1
            e = ('*', e, s.unary())
        return e

    def unary(s):
        if s.peek() == '-':
            s.i += 1
            # Lean: `-a * b` is `(-a) * b`, as in C++
            return ('neg', s.unary())
        return s.app()

    def atom_start(s):
        p = s.peek()
        return p is not None and (p in ('(', '⟨') or re.match(r'[\w.]', p))

    def app(s):
        f = s.atom()
        if s.lean:
            args = []
            while s.atom_start():
                args.append(s.atom())
            return ('call', f, *args) if args else f
        while s.peek() == '(':
            args = s.group('(', ')')
            f = flat(args) if f in TYPES else ('call', f, *args)
        return f

    def group(s, o, c):
        s.eat(o)
        r = []
        while s.peek() != c:
            r.append(s.expr())
            if s.peek() == ',':
                s.i += 1
        s.eat(c)
        return r

    def atom(s):
        p = s.peek()
        if p == '(':
            s.i += 1
            e = s.expr()
            if s.lean and s.peek() == ':':
                while s.peek() != ')':
                    s.i += 1
            s.eat(')')
            return s.members(e)
        if p in ('⟨', '{'):
            return flat(s.group(p, '⟩' if p == '⟨' else '}'))
        s.i += 1
        if not s.lean and p in TYPES and s.peek() == '{':
            return flat(s.group('{', '}'))
        return p

    def members(s, e):
        while s.peek() and s.peek().startswith('.'):
            e = ('field', e, s.peek()); s.i += 1
        return e


def flat(xs):
    r = []
    for x in xs:
        r += list(x[1:]) if isinstance(x, tuple) and x[0] == 'tuple' else [x]
    return ('tuple', *r) if len(r) != 1 else r[0]


def subst(e, env):
    if isinstance(e, str):
        h, _, rest = e.partition('.')
        if h in env:
            v = env[h]
            if not rest:
                return v
            if isinstance(v, str):
                return v + '.' + rest
            for f in rest.split('.'):
                v = ('field', v, '.' + f)
            return v
        return e
    if e[0] == 'tuple':
        return flat([subst(x, env) for x in e[1:]])
    if e[0] == 'call':
        return ('call', e[1], *[subst(x, env) for x in e[2:]])
    if e[0] == 'field':
        return ('field', subst(e[1], env), e[2])
    return (e[0], *[subst(x, env) for x in e[1:]])


def toks(s):
    return re.findall(r"[A-Za-z_]\w*(?:\.[A-Za-z_]\w*)*|\d+\.\d*|\d+|\.\w+|[-+*(){}⟨⟩,:=]", s)


def cpp_body(body):
    body = re.sub(r'//[^\n]*', '', body)
    body = re.sub(r'\busing [^;]*;', '', body)
    body = re.sub(r'\b(?:priv|engabra|g3)::', '', body)
    body = re.sub(r'theData\[(\d)\]', r'theData.d\1', body)
    env, parts = {}, []
    for st in [x.strip() for x in body.split(';') if x.strip()]:
        am = re.match(r'(\w+)\.(the\w+)\.theData\.d(\d)\s*=', st)
        if am:  # result.thePart.theData[k] = ...; kept in the order of the components
            parts.append(((ORDER.index(am.group(2)), int(am.group(3))),
                          subst(P(toks(st[am.end():]), False).expr(), env)))
            continue
        if re.match(r'MultiVector result\{\}$', st):
            continue
        if st == 'return result':
            assert [k for k, _ in parts] == COMPONENTS, parts
            return ('tuple', *[e for _, e in parts])
        if st.startswith('return'):
            e = P(toks(st[6:]), False).expr()
            return subst(e, env)
        m = re.match(r'(\w+)\s+(?:const\s*)?&?\s*(\w+)\s*(=)?', st)
        rest = st[m.end():]
        if rest.strip().startswith('{'):
            e = flat(P(toks(rest), False).group('{', '}'))
        elif rest.strip().startswith('('):
            e = flat(P(toks(rest), False).group('(', ')'))
        else:
            e = P(toks(rest), False).expr()
        env[m.group(2)] = subst(e, env)
    raise ValueError('no return')


def cpp():
    out = {}
    for f in sorted(glob.glob(REPO + '/include/g3ops*.hpp')):
        txt = open(f).read()
        blank = re.sub(r'/\*.*?\*/', lambda m: re.sub(r'[^\n]', ' ', m.group(0)), txt, flags=re.S)
        for m in re.finditer(r'\b(\w+)\s+(operator\s*[-+*]|reverse|oddverse|dirverse|dual)\s*'
                             r'\(([^()]*)\)\s*\{', blank):
            i, d = m.end(), 1
            while d:
                d += {'{': 1, '}': -1}.get(blank[i], 0)
                i += 1
            ps = [re.match(r'\s*(\w+)\s*(?:const)?\s*&?\s*(\w+)', p).groups()
                  for p in re.sub(r'//[^\n]*', '', m.group(3)).split(',') if p.strip()]
            op = m.group(2).replace('operator', '').strip()
            ty = tuple(p[0] for p in ps)
            line = txt.count('\n', 0, m.start()) + 1
            out[(op, ty)] = (m.group(1), [p[1] for p in ps], blank[m.end():i - 1],
                             os.path.basename(f), line, txt.count('\n', 0, i) + 1)
    return out


def rename(e, old, new):
    return subst(e, dict(zip(old, new)))


def lean_defs():
    out = {}
    for name in ('Uni', 'Add', 'Sub', 'Mul'):
        txt = open(f'{HERE}/{name}.lean').read()
        for m in re.finditer(r'/--(.*?)-/\s*def (\w+)((?:\s*\([^()]*(?:\([^()]*\))?[^()]*\))*)\s*:\s*'
                             r'([^\n]*?) :=\n(.*?)(?=\n\n|\ninstance|\nend |\Z)', txt, flags=re.S):
            doc, dn, params, res, body = m.groups()
            ps = [(x, t) for xs, t in re.findall(r'\(([\w ]+) : (\w+|α)(?: α)?\)', params)
                  for x in xs.split()]
            yield name, dn, doc, ps, res, body


def main():
    C = cpp()
    used, bad, n = set(), [], 0
    opname = {'add': '+', 'sub': '-', 'mul': '*', 'neg': '-', 'reverse': 'reverse',
              'oddverse': 'oddverse', 'dirverse': 'dirverse', 'dual': 'dual'}
    for mod, dn, doc, ps, res, body in lean_defs():
        pre = re.match(r'(add|sub|mul|neg|reverse|oddverse|dirverse|dual)[A-Z]', dn)
        if not pre:
            continue
        op = opname[pre.group(1)]
        ty = tuple('double' if t == 'α' else t for _, t in ps)
        key = (op, ty)
        env = {}
        lines = body.split('\n')
        rest = []
        for ln in lines:
            lm = re.match(r'\s*let (\w+)(?: : [^:]*)? := (.*)', ln)
            if lm:
                env[lm.group(1)] = subst(P(toks(lm.group(2)), True).expr(), env)
            else:
                rest.append(ln)
        le = subst(P(toks('\n'.join(rest)), True).expr(), env)
        if key not in C:
            blade = ('Blade',) * len(ty)
            if len(set(ty)) == 1 and ty[0] in ('Scalar', 'Vector', 'BiVector', 'TriVector') \
                    and (op, blade) in C:
                used.add((op, blade))
                # a template applying `op` component by component
                dim = 3 if ty[0] in ('Vector', 'BiVector') else 1
                comp = []
                for k in range(dim):
                    xs = [f'{p}.theData.d{k}' for p, _ in ps]
                    comp.append(('neg', xs[0]) if len(xs) == 1 else (op, *xs))
                ce = flat(comp)
                n += 1
                if ce != le:
                    bad.append((dn, ce, le))
                continue
            print('only in the model:', dn, key)
            continue
        used.add(key)
        n += 1
        rty, names, cb, f, l0, l1 = C[key]
        if re.sub(r' α', '', res).strip().replace('α', 'double') != rty:
            print('result type', dn, res, rty)
        cite = re.search(r'`(g3ops\w+\.hpp):(\d+)-(\d+)`', doc)
        if not cite or cite.group(1) != f or not (int(cite.group(2)) <= l0 + 2 and
                                                   int(cite.group(3)) + 2 >= l1):
            print('citation', dn, cite and cite.group(0), f, l0, l1)
        ce = rename(cpp_body(cb), names, [p for p, _ in ps])
        if ce != le:
            bad.append((dn, ce, le))
    for k in sorted(C):
        if k not in used:
            print('only in the code:', k, C[k][3:])
    for dn, ce, le in bad:
        print('DIFFERENT', dn, '\n   code ', ce, '\n   model', le)
    print(n, 'overloads compared,', len(bad), 'different')


main()
