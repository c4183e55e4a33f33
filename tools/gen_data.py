#!/usr/bin/env python3
"""Generate the Lean tables of the data in /repo: lean/Verif/Model/BuiltinTags.lean and Entities.lean."""
import json, re, os
REPO = '/repo/src/'
OUT = os.path.join(os.path.dirname(os.path.abspath(__file__)), '../lean/Verif/Model/')

# --- web_custom_data.rs ---
path = REPO + 'language_facts/web_custom_data.rs'
src = open(path, encoding='utf-8').read()
i = src.index('r##"') + 4
data = json.loads(src[i:src.rindex('"##')])
lines = src.split('\n')

def blocks(key):
    """Line ranges of the objects in the array `key` (indented by 8 spaces)."""
    out, on, start = [], False, None
    for n, l in enumerate(lines, 1):
        if l.startswith(f'    "{key}": ['): on = True
        elif on and l.startswith('    ]'): return out
        elif on and l == '        {': start = n
        elif on and l in ('        },', '        }'): out.append((start, n))
    raise SystemExit('array not found')

count = 0
def num():
    global count
    count += 1
    return count - 1

def b(s): return 'b!' + json.dumps(s, ensure_ascii=False)
def desc(x):
    if 'description' not in x: return 'none'
    d = x['description']
    if isinstance(d, str): return f'(str doc {num()})'
    assert d['kind'] == 'markdown'
    return f'(mark doc {num()})'
def refs(x):
    if 'references' not in x: return 'none'
    return '(some [' + ', '.join(f'⟨doc {num()}, doc {num()}⟩' for _ in x['references']) + '])'
def val(x): return f'⟨{b(x["name"])}, {desc(x)}, {refs(x)}⟩'
def attr(x):
    assert 'values' not in x
    vs = f'(some {b(x["valueSet"])})' if 'valueSet' in x else 'none'
    return f'⟨{b(x["name"])}, {desc(x)}, {vs}, none, {refs(x)}⟩'
def lst(xs, ind): return '[' + (',\n' + ' ' * ind).join(xs) + ']'

o = ['''import Verif.Model.LanguageFacts

/-!
# The built-in data

`HTML_DATA_INSTANCE` (`/repo/src/language_facts/web_custom_data.rs`): names, value sets, void flags, and which
entries have a description (as a text or as markup) and references.  The texts of descriptions and references
are left open: `doc n` is the `n`-th such text.

Made by `tools/gen_data.py`.
-/

namespace Html.Builtin

/-- A description that is a plain text. -/
def str (doc : Nat → Str) (n : Nat) : Option Description := some (.str (doc n))

/-- A description that is a `MarkupContent`. -/
def mark (doc : Nat → Str) (n : Nat) : Option Description := some (.markup (doc n))
''']
cite = 'web_custom_data.rs '
names = []
for t, (a, z) in zip(data['tags'], blocks('tags')):
    nm = 'tag_' + t['name']
    names.append(nm)
    v = 'none' if 'void' not in t else f'(some {str(t["void"]).lower()})'
    o.append(f'''/-- `{t['name']}`, {cite}{a}-{z}. -/
def {nm} (doc : Nat → Str) : TagData :=
  ⟨{b(t['name'])}, {desc(t)},
    {lst([attr(x) for x in t['attributes']], 5)}, {refs(t)}, {v}⟩
''')
bl = blocks('globalAttributes')
o.append(f'''/-- The global attributes, {cite}{bl[0][0]}-{bl[-1][1]}. -/
def globals (doc : Nat → Str) : List AttributeData :=
  {lst([attr(x) for x in data['globalAttributes']], 3)}
''')
vs = []
for x, (a, z) in zip(data['valueSets'], blocks('valueSets')):
    nm = 'set_' + x['name']
    vs.append(nm)
    o.append(f'''/-- The value set `{x['name']}`, {cite}{a}-{z}. -/
def {nm} (doc : Nat → Str) : ValueSet :=
  ⟨{b(x['name'])}, {lst([val(v) for v in x['values']], 4)}⟩
''')
def wrap(xs, ind, width=110):
    rows, cur = [], ''
    for x in xs:
        if cur and len(cur) + len(x) + 2 > width: rows.append(cur); cur = x
        else: cur = cur + ', ' + x if cur else x
    rows.append(cur)
    return '[' + (',\n' + ' ' * ind).join(rows) + ']'
o.append(f'''/-- The tags, {cite}{blocks('tags')[0][0]}-{blocks('tags')[-1][1]}. -/
def tags (doc : Nat → Str) : List TagData :=
  {wrap([n + ' doc' for n in names], 3)}

/-- The value sets, {cite}{blocks('valueSets')[0][0]}-{blocks('valueSets')[-1][1]}. -/
def valueSets (doc : Nat → Str) : List ValueSet :=
  {wrap([n + ' doc' for n in vs], 3)}

end Html.Builtin

namespace Html

/-- `HTML_DATA_INSTANCE`, web_custom_data.rs 5-7. -/
def builtinData (doc : Nat → Str) : HTMLData :=
  ⟨some (Builtin.tags doc), some (Builtin.globals doc), some (Builtin.valueSets doc)⟩

end Html
''')
open(OUT + 'BuiltinTags.lean', 'w', encoding='utf-8').write('\n'.join(o))

# --- html_entities.rs ---
path = REPO + 'parser/html_entities.rs'
rows = []
for n, l in enumerate(open(path, encoding='utf-8').read().split('\n'), 1):
    m = re.fullmatch(r'\s*\("([^"]*)", "((?:\\u\{[0-9A-Fa-f]+\})+)"\),?', l)
    if m:
        v = ''.join(chr(int(x, 16)) for x in re.findall(r'\\u\{([0-9A-Fa-f]+)\}', m.group(2)))
        rows.append((n, m.group(1), list(v.encode('utf-8'))))
    else:
        assert l.strip().startswith('//') or '("' not in l, l
o = ['''import Verif.Model.LanguageFacts

/-!
# Character references

`html_entities::ENTITIES` (`/repo/src/parser/html_entities.rs`).  The entries that are commented out there are
left out.

Made by `tools/gen_data.py`.
-/

namespace Html.Builtin
''']
step = 100
parts = []
for k in range(0, len(rows), step):
    part = rows[k:k + step]
    parts.append(f'refs{k // step}')
    es = [f'({b(nm)}, {v})' for _, nm, v in part]
    o.append(f'''/-- html_entities.rs {part[0][0]}-{part[-1][0]}. -/
def refs{k // step} : HMap Str :=
  {wrap(es, 3)}
''')
o.append(f'''end Html.Builtin

namespace Html
open Builtin

/-- `ENTITIES`, html_entities.rs 8-{rows[-1][0] + 1}.  A `HashMap` has no order: statements are about every rearrangement of
this list. -/
def builtinEntities : HMap Str :=
  {' ++ '.join(parts[:12])} ++
  {' ++ '.join(parts[12:])}

end Html
''')
open(OUT + 'Entities.lean', 'w', encoding='utf-8').write('\n'.join(o))
print(len(data['tags']), count, len(rows))
