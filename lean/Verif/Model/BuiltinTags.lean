import Verif.Model.LanguageFacts

/-!
# The built-in data

`HTML_DATA_INSTANCE` (`/repo/src/language_facts/web_custom_data.rs`): names, value sets, void flags, and which
entries have a description (as a text or as markup) and references.  The texts of descriptions and references
are left open: `doc n` is the `n`-th such text.

Made by `tools/gen_data.py`.
-/

namespace Html.Builtin

/-- A description that is a plain text. -/
def str (doc : Nat → Str) (n : Nat) : Option Description := some (.str (doc n))

/-- A description that is a `MarkupContent`. -/
def mark (doc : Nat → Str) (n : Nat) : Option Description := some (.markup (doc n))

/-- `html`, web_custom_data.rs 13-42. -/
def tag_html (doc : Nat → Str) : TagData :=
  ⟨b!"html", (mark doc 0),
    [⟨b!"manifest", (mark doc 1), none, none, none⟩,
     ⟨b!"version", (str doc 2), none, none, none⟩,
     ⟨b!"xmlns", (str doc 3), none, none, none⟩], (some [⟨doc 4, doc 5⟩]), none⟩

/-- `head`, web_custom_data.rs 43-61. -/
def tag_head (doc : Nat → Str) : TagData :=
  ⟨b!"head", (mark doc 6),
    [⟨b!"profile", (str doc 7), none, none, none⟩], (some [⟨doc 8, doc 9⟩]), none⟩

/-- `title`, web_custom_data.rs 62-75. -/
def tag_title (doc : Nat → Str) : TagData :=
  ⟨b!"title", (mark doc 10),
    [], (some [⟨doc 11, doc 12⟩]), none⟩

/-- `base`, web_custom_data.rs 76-106. -/
def tag_base (doc : Nat → Str) : TagData :=
  ⟨b!"base", (mark doc 13),
    [⟨b!"href", (mark doc 14), none, none, none⟩,
     ⟨b!"target", (mark doc 15), (some b!"target"), none, none⟩], (some [⟨doc 16, doc 17⟩]), (some true)⟩

/-- `link`, web_custom_data.rs 107-196. -/
def tag_link (doc : Nat → Str) : TagData :=
  ⟨b!"link", (mark doc 18),
    [⟨b!"href", (mark doc 19), none, none, none⟩,
     ⟨b!"crossorigin", (mark doc 20), (some b!"xo"), none, none⟩,
     ⟨b!"rel", (mark doc 21), none, none, none⟩,
     ⟨b!"media", (mark doc 22), none, none, none⟩,
     ⟨b!"hreflang", (mark doc 23), none, none, none⟩,
     ⟨b!"type", (mark doc 24), none, none, none⟩,
     ⟨b!"sizes", (mark doc 25), none, none, none⟩,
     ⟨b!"as", (str doc 26), none, none, none⟩,
     ⟨b!"importance", (str doc 27), none, none, none⟩,
     ⟨b!"importance", (str doc 28), none, none, none⟩,
     ⟨b!"integrity", (str doc 29), none, none, none⟩,
     ⟨b!"referrerpolicy", (str doc 30), none, none, none⟩,
     ⟨b!"title", (str doc 31), none, none, none⟩], (some [⟨doc 32, doc 33⟩]), (some true)⟩

/-- `meta`, web_custom_data.rs 197-244. -/
def tag_meta (doc : Nat → Str) : TagData :=
  ⟨b!"meta", (mark doc 34),
    [⟨b!"name", (mark doc 35), none, none, none⟩,
     ⟨b!"http-equiv", (mark doc 36), none, none, none⟩,
     ⟨b!"content", (mark doc 37), none, none, none⟩,
     ⟨b!"charset", (mark doc 38), none, none, none⟩,
     ⟨b!"scheme", (str doc 39), none, none, none⟩], (some [⟨doc 40, doc 41⟩]), (some true)⟩

/-- `style`, web_custom_data.rs 245-288. -/
def tag_style (doc : Nat → Str) : TagData :=
  ⟨b!"style", (mark doc 42),
    [⟨b!"media", (mark doc 43), none, none, none⟩,
     ⟨b!"nonce", (mark doc 44), none, none, none⟩,
     ⟨b!"type", (mark doc 45), none, none, none⟩,
     ⟨b!"scoped", none, (some b!"v"), none, none⟩,
     ⟨b!"title", (str doc 46), none, none, none⟩], (some [⟨doc 47, doc 48⟩]), none⟩

/-- `body`, web_custom_data.rs 289-454. -/
def tag_body (doc : Nat → Str) : TagData :=
  ⟨b!"body", (mark doc 49),
    [⟨b!"onafterprint", (mark doc 50), none, none, none⟩,
     ⟨b!"onbeforeprint", (mark doc 51), none, none, none⟩,
     ⟨b!"onbeforeunload", (mark doc 52), none, none, none⟩,
     ⟨b!"onhashchange", (mark doc 53), none, none, none⟩,
     ⟨b!"onlanguagechange", (mark doc 54), none, none, none⟩,
     ⟨b!"onmessage", (mark doc 55), none, none, none⟩,
     ⟨b!"onoffline", (mark doc 56), none, none, none⟩,
     ⟨b!"ononline", (mark doc 57), none, none, none⟩,
     ⟨b!"onpagehide", none, none, none, none⟩,
     ⟨b!"onpageshow", none, none, none, none⟩,
     ⟨b!"onpopstate", (mark doc 58), none, none, none⟩,
     ⟨b!"onstorage", (mark doc 59), none, none, none⟩,
     ⟨b!"onunload", (mark doc 60), none, none, none⟩,
     ⟨b!"alink", (str doc 61), none, none, none⟩,
     ⟨b!"background", (str doc 62), none, none, none⟩,
     ⟨b!"bgcolor", (str doc 63), none, none, none⟩,
     ⟨b!"bottommargin", (str doc 64), none, none, none⟩,
     ⟨b!"leftmargin", (str doc 65), none, none, none⟩,
     ⟨b!"link", (str doc 66), none, none, none⟩,
     ⟨b!"onblur", (str doc 67), none, none, none⟩,
     ⟨b!"onerror", (str doc 68), none, none, none⟩,
     ⟨b!"onfocus", (str doc 69), none, none, none⟩,
     ⟨b!"onload", (str doc 70), none, none, none⟩,
     ⟨b!"onredo", (str doc 71), none, none, none⟩,
     ⟨b!"onresize", (str doc 72), none, none, none⟩,
     ⟨b!"onundo", (str doc 73), none, none, none⟩,
     ⟨b!"rightmargin", (str doc 74), none, none, none⟩,
     ⟨b!"text", (str doc 75), none, none, none⟩,
     ⟨b!"topmargin", (str doc 76), none, none, none⟩,
     ⟨b!"vlink", (str doc 77), none, none, none⟩], (some [⟨doc 78, doc 79⟩]), none⟩

/-- `article`, web_custom_data.rs 455-468. -/
def tag_article (doc : Nat → Str) : TagData :=
  ⟨b!"article", (mark doc 80),
    [], (some [⟨doc 81, doc 82⟩]), none⟩

/-- `section`, web_custom_data.rs 469-482. -/
def tag_section (doc : Nat → Str) : TagData :=
  ⟨b!"section", (mark doc 83),
    [], (some [⟨doc 84, doc 85⟩]), none⟩

/-- `nav`, web_custom_data.rs 483-496. -/
def tag_nav (doc : Nat → Str) : TagData :=
  ⟨b!"nav", (mark doc 86),
    [], (some [⟨doc 87, doc 88⟩]), none⟩

/-- `aside`, web_custom_data.rs 497-510. -/
def tag_aside (doc : Nat → Str) : TagData :=
  ⟨b!"aside", (mark doc 89),
    [], (some [⟨doc 90, doc 91⟩]), none⟩

/-- `h1`, web_custom_data.rs 511-524. -/
def tag_h1 (doc : Nat → Str) : TagData :=
  ⟨b!"h1", (mark doc 92),
    [], (some [⟨doc 93, doc 94⟩]), none⟩

/-- `h2`, web_custom_data.rs 525-538. -/
def tag_h2 (doc : Nat → Str) : TagData :=
  ⟨b!"h2", (mark doc 95),
    [], (some [⟨doc 96, doc 97⟩]), none⟩

/-- `h3`, web_custom_data.rs 539-552. -/
def tag_h3 (doc : Nat → Str) : TagData :=
  ⟨b!"h3", (mark doc 98),
    [], (some [⟨doc 99, doc 100⟩]), none⟩

/-- `h4`, web_custom_data.rs 553-566. -/
def tag_h4 (doc : Nat → Str) : TagData :=
  ⟨b!"h4", (mark doc 101),
    [], (some [⟨doc 102, doc 103⟩]), none⟩

/-- `h5`, web_custom_data.rs 567-580. -/
def tag_h5 (doc : Nat → Str) : TagData :=
  ⟨b!"h5", (mark doc 104),
    [], (some [⟨doc 105, doc 106⟩]), none⟩

/-- `h6`, web_custom_data.rs 581-594. -/
def tag_h6 (doc : Nat → Str) : TagData :=
  ⟨b!"h6", (mark doc 107),
    [], (some [⟨doc 108, doc 109⟩]), none⟩

/-- `header`, web_custom_data.rs 595-608. -/
def tag_header (doc : Nat → Str) : TagData :=
  ⟨b!"header", (mark doc 110),
    [], (some [⟨doc 111, doc 112⟩]), none⟩

/-- `footer`, web_custom_data.rs 609-622. -/
def tag_footer (doc : Nat → Str) : TagData :=
  ⟨b!"footer", (mark doc 113),
    [], (some [⟨doc 114, doc 115⟩]), none⟩

/-- `address`, web_custom_data.rs 623-636. -/
def tag_address (doc : Nat → Str) : TagData :=
  ⟨b!"address", (mark doc 116),
    [], (some [⟨doc 117, doc 118⟩]), none⟩

/-- `p`, web_custom_data.rs 637-650. -/
def tag_p (doc : Nat → Str) : TagData :=
  ⟨b!"p", (mark doc 119),
    [], (some [⟨doc 120, doc 121⟩]), none⟩

/-- `hr`, web_custom_data.rs 651-686. -/
def tag_hr (doc : Nat → Str) : TagData :=
  ⟨b!"hr", (mark doc 122),
    [⟨b!"align", (str doc 123), none, none, none⟩,
     ⟨b!"color", (str doc 124), none, none, none⟩,
     ⟨b!"noshade", (str doc 125), none, none, none⟩,
     ⟨b!"size", (str doc 126), none, none, none⟩,
     ⟨b!"width", (str doc 127), none, none, none⟩], (some [⟨doc 128, doc 129⟩]), (some true)⟩

/-- `pre`, web_custom_data.rs 687-713. -/
def tag_pre (doc : Nat → Str) : TagData :=
  ⟨b!"pre", (mark doc 130),
    [⟨b!"cols", (str doc 131), none, none, none⟩,
     ⟨b!"width", (str doc 132), none, none, none⟩,
     ⟨b!"wrap", (str doc 133), none, none, none⟩], (some [⟨doc 134, doc 135⟩]), none⟩

/-- `blockquote`, web_custom_data.rs 714-735. -/
def tag_blockquote (doc : Nat → Str) : TagData :=
  ⟨b!"blockquote", (mark doc 136),
    [⟨b!"cite", (mark doc 137), none, none, none⟩], (some [⟨doc 138, doc 139⟩]), none⟩

/-- `ol`, web_custom_data.rs 736-777. -/
def tag_ol (doc : Nat → Str) : TagData :=
  ⟨b!"ol", (mark doc 140),
    [⟨b!"reversed", (mark doc 141), (some b!"v"), none, none⟩,
     ⟨b!"start", (mark doc 142), none, none, none⟩,
     ⟨b!"type", (mark doc 143), (some b!"lt"), none, none⟩,
     ⟨b!"compact", (str doc 144), none, none, none⟩], (some [⟨doc 145, doc 146⟩]), none⟩

/-- `ul`, web_custom_data.rs 778-796. -/
def tag_ul (doc : Nat → Str) : TagData :=
  ⟨b!"ul", (mark doc 147),
    [⟨b!"compact", (str doc 148), none, none, none⟩], (some [⟨doc 149, doc 150⟩]), none⟩

/-- `li`, web_custom_data.rs 797-822. -/
def tag_li (doc : Nat → Str) : TagData :=
  ⟨b!"li", (mark doc 151),
    [⟨b!"value", (mark doc 152), none, none, none⟩,
     ⟨b!"type", (str doc 153), none, none, none⟩], (some [⟨doc 154, doc 155⟩]), none⟩

/-- `dl`, web_custom_data.rs 823-836. -/
def tag_dl (doc : Nat → Str) : TagData :=
  ⟨b!"dl", (mark doc 156),
    [], (some [⟨doc 157, doc 158⟩]), none⟩

/-- `dt`, web_custom_data.rs 837-850. -/
def tag_dt (doc : Nat → Str) : TagData :=
  ⟨b!"dt", (mark doc 159),
    [], (some [⟨doc 160, doc 161⟩]), none⟩

/-- `dd`, web_custom_data.rs 851-869. -/
def tag_dd (doc : Nat → Str) : TagData :=
  ⟨b!"dd", (mark doc 162),
    [⟨b!"nowrap", (str doc 163), none, none, none⟩], (some [⟨doc 164, doc 165⟩]), none⟩

/-- `figure`, web_custom_data.rs 870-883. -/
def tag_figure (doc : Nat → Str) : TagData :=
  ⟨b!"figure", (mark doc 166),
    [], (some [⟨doc 167, doc 168⟩]), none⟩

/-- `figcaption`, web_custom_data.rs 884-897. -/
def tag_figcaption (doc : Nat → Str) : TagData :=
  ⟨b!"figcaption", (mark doc 169),
    [], (some [⟨doc 170, doc 171⟩]), none⟩

/-- `main`, web_custom_data.rs 898-911. -/
def tag_main (doc : Nat → Str) : TagData :=
  ⟨b!"main", (mark doc 172),
    [], (some [⟨doc 173, doc 174⟩]), none⟩

/-- `div`, web_custom_data.rs 912-925. -/
def tag_div (doc : Nat → Str) : TagData :=
  ⟨b!"div", (mark doc 175),
    [], (some [⟨doc 176, doc 177⟩]), none⟩

/-- `a`, web_custom_data.rs 926-994. -/
def tag_a (doc : Nat → Str) : TagData :=
  ⟨b!"a", (mark doc 178),
    [⟨b!"href", (mark doc 179), none, none, none⟩,
     ⟨b!"target", (mark doc 180), (some b!"target"), none, none⟩,
     ⟨b!"download", (mark doc 181), none, none, none⟩,
     ⟨b!"ping", (mark doc 182), none, none, none⟩,
     ⟨b!"rel", (mark doc 183), none, none, none⟩,
     ⟨b!"hreflang", (mark doc 184), none, none, none⟩,
     ⟨b!"type", (mark doc 185), none, none, none⟩,
     ⟨b!"referrerpolicy", (str doc 186), none, none, none⟩], (some [⟨doc 187, doc 188⟩]), none⟩

/-- `em`, web_custom_data.rs 995-1008. -/
def tag_em (doc : Nat → Str) : TagData :=
  ⟨b!"em", (mark doc 189),
    [], (some [⟨doc 190, doc 191⟩]), none⟩

/-- `strong`, web_custom_data.rs 1009-1022. -/
def tag_strong (doc : Nat → Str) : TagData :=
  ⟨b!"strong", (mark doc 192),
    [], (some [⟨doc 193, doc 194⟩]), none⟩

/-- `small`, web_custom_data.rs 1023-1036. -/
def tag_small (doc : Nat → Str) : TagData :=
  ⟨b!"small", (mark doc 195),
    [], (some [⟨doc 196, doc 197⟩]), none⟩

/-- `s`, web_custom_data.rs 1037-1050. -/
def tag_s (doc : Nat → Str) : TagData :=
  ⟨b!"s", (mark doc 198),
    [], (some [⟨doc 199, doc 200⟩]), none⟩

/-- `cite`, web_custom_data.rs 1051-1064. -/
def tag_cite (doc : Nat → Str) : TagData :=
  ⟨b!"cite", (mark doc 201),
    [], (some [⟨doc 202, doc 203⟩]), none⟩

/-- `q`, web_custom_data.rs 1065-1086. -/
def tag_q (doc : Nat → Str) : TagData :=
  ⟨b!"q", (mark doc 204),
    [⟨b!"cite", (mark doc 205), none, none, none⟩], (some [⟨doc 206, doc 207⟩]), none⟩

/-- `dfn`, web_custom_data.rs 1087-1100. -/
def tag_dfn (doc : Nat → Str) : TagData :=
  ⟨b!"dfn", (mark doc 208),
    [], (some [⟨doc 209, doc 210⟩]), none⟩

/-- `abbr`, web_custom_data.rs 1101-1114. -/
def tag_abbr (doc : Nat → Str) : TagData :=
  ⟨b!"abbr", (mark doc 211),
    [], (some [⟨doc 212, doc 213⟩]), none⟩

/-- `ruby`, web_custom_data.rs 1115-1128. -/
def tag_ruby (doc : Nat → Str) : TagData :=
  ⟨b!"ruby", (mark doc 214),
    [], (some [⟨doc 215, doc 216⟩]), none⟩

/-- `rb`, web_custom_data.rs 1129-1142. -/
def tag_rb (doc : Nat → Str) : TagData :=
  ⟨b!"rb", (mark doc 217),
    [], (some [⟨doc 218, doc 219⟩]), none⟩

/-- `rt`, web_custom_data.rs 1143-1156. -/
def tag_rt (doc : Nat → Str) : TagData :=
  ⟨b!"rt", (mark doc 220),
    [], (some [⟨doc 221, doc 222⟩]), none⟩

/-- `rp`, web_custom_data.rs 1157-1170. -/
def tag_rp (doc : Nat → Str) : TagData :=
  ⟨b!"rp", (mark doc 223),
    [], (some [⟨doc 224, doc 225⟩]), none⟩

/-- `time`, web_custom_data.rs 1171-1192. -/
def tag_time (doc : Nat → Str) : TagData :=
  ⟨b!"time", (mark doc 226),
    [⟨b!"datetime", (mark doc 227), none, none, none⟩], (some [⟨doc 228, doc 229⟩]), none⟩

/-- `code`, web_custom_data.rs 1193-1206. -/
def tag_code (doc : Nat → Str) : TagData :=
  ⟨b!"code", (mark doc 230),
    [], (some [⟨doc 231, doc 232⟩]), none⟩

/-- `var`, web_custom_data.rs 1207-1220. -/
def tag_var (doc : Nat → Str) : TagData :=
  ⟨b!"var", (mark doc 233),
    [], (some [⟨doc 234, doc 235⟩]), none⟩

/-- `samp`, web_custom_data.rs 1221-1234. -/
def tag_samp (doc : Nat → Str) : TagData :=
  ⟨b!"samp", (mark doc 236),
    [], (some [⟨doc 237, doc 238⟩]), none⟩

/-- `kbd`, web_custom_data.rs 1235-1248. -/
def tag_kbd (doc : Nat → Str) : TagData :=
  ⟨b!"kbd", (mark doc 239),
    [], (some [⟨doc 240, doc 241⟩]), none⟩

/-- `sub`, web_custom_data.rs 1249-1262. -/
def tag_sub (doc : Nat → Str) : TagData :=
  ⟨b!"sub", (mark doc 242),
    [], (some [⟨doc 243, doc 244⟩]), none⟩

/-- `sup`, web_custom_data.rs 1263-1276. -/
def tag_sup (doc : Nat → Str) : TagData :=
  ⟨b!"sup", (mark doc 245),
    [], (some [⟨doc 246, doc 247⟩]), none⟩

/-- `i`, web_custom_data.rs 1277-1290. -/
def tag_i (doc : Nat → Str) : TagData :=
  ⟨b!"i", (mark doc 248),
    [], (some [⟨doc 249, doc 250⟩]), none⟩

/-- `b`, web_custom_data.rs 1291-1304. -/
def tag_b (doc : Nat → Str) : TagData :=
  ⟨b!"b", (mark doc 251),
    [], (some [⟨doc 252, doc 253⟩]), none⟩

/-- `u`, web_custom_data.rs 1305-1318. -/
def tag_u (doc : Nat → Str) : TagData :=
  ⟨b!"u", (mark doc 254),
    [], (some [⟨doc 255, doc 256⟩]), none⟩

/-- `mark`, web_custom_data.rs 1319-1332. -/
def tag_mark (doc : Nat → Str) : TagData :=
  ⟨b!"mark", (mark doc 257),
    [], (some [⟨doc 258, doc 259⟩]), none⟩

/-- `bdi`, web_custom_data.rs 1333-1346. -/
def tag_bdi (doc : Nat → Str) : TagData :=
  ⟨b!"bdi", (mark doc 260),
    [], (some [⟨doc 261, doc 262⟩]), none⟩

/-- `bdo`, web_custom_data.rs 1347-1365. -/
def tag_bdo (doc : Nat → Str) : TagData :=
  ⟨b!"bdo", (mark doc 263),
    [⟨b!"dir", (str doc 264), none, none, none⟩], (some [⟨doc 265, doc 266⟩]), none⟩

/-- `span`, web_custom_data.rs 1366-1379. -/
def tag_span (doc : Nat → Str) : TagData :=
  ⟨b!"span", (mark doc 267),
    [], (some [⟨doc 268, doc 269⟩]), none⟩

/-- `br`, web_custom_data.rs 1380-1399. -/
def tag_br (doc : Nat → Str) : TagData :=
  ⟨b!"br", (mark doc 270),
    [⟨b!"clear", (str doc 271), none, none, none⟩], (some [⟨doc 272, doc 273⟩]), (some true)⟩

/-- `wbr`, web_custom_data.rs 1400-1414. -/
def tag_wbr (doc : Nat → Str) : TagData :=
  ⟨b!"wbr", (mark doc 274),
    [], (some [⟨doc 275, doc 276⟩]), (some true)⟩

/-- `ins`, web_custom_data.rs 1415-1437. -/
def tag_ins (doc : Nat → Str) : TagData :=
  ⟨b!"ins", (mark doc 277),
    [⟨b!"cite", (str doc 278), none, none, none⟩,
     ⟨b!"datetime", (str doc 279), none, none, none⟩], (some [⟨doc 280, doc 281⟩]), none⟩

/-- `del`, web_custom_data.rs 1438-1466. -/
def tag_del (doc : Nat → Str) : TagData :=
  ⟨b!"del", (mark doc 282),
    [⟨b!"cite", (mark doc 283), none, none, none⟩,
     ⟨b!"datetime", (mark doc 284), none, none, none⟩], (some [⟨doc 285, doc 286⟩]), none⟩

/-- `picture`, web_custom_data.rs 1467-1480. -/
def tag_picture (doc : Nat → Str) : TagData :=
  ⟨b!"picture", (mark doc 287),
    [], (some [⟨doc 288, doc 289⟩]), none⟩

/-- `img`, web_custom_data.rs 1481-1597. -/
def tag_img (doc : Nat → Str) : TagData :=
  ⟨b!"img", (mark doc 290),
    [⟨b!"alt", (mark doc 291), none, none, none⟩,
     ⟨b!"src", (mark doc 292), none, none, none⟩,
     ⟨b!"srcset", (mark doc 293), none, none, none⟩,
     ⟨b!"crossorigin", (mark doc 294), (some b!"xo"), none, none⟩,
     ⟨b!"usemap", (mark doc 295), none, none, none⟩,
     ⟨b!"ismap", (mark doc 296), (some b!"v"), none, none⟩,
     ⟨b!"width", (mark doc 297), none, none, none⟩,
     ⟨b!"height", (mark doc 298), none, none, none⟩,
     ⟨b!"decoding", (mark doc 299), (some b!"decoding"), none, none⟩,
     ⟨b!"loading", (mark doc 300), (some b!"loading"), none, none⟩,
     ⟨b!"referrerpolicy", (mark doc 301), (some b!"referrerpolicy"), none, none⟩,
     ⟨b!"sizes", (mark doc 302), none, none, none⟩,
     ⟨b!"importance", (str doc 303), none, none, none⟩,
     ⟨b!"importance", (str doc 304), none, none, none⟩,
     ⟨b!"intrinsicsize", (str doc 305), none, none, none⟩], (some [⟨doc 306, doc 307⟩]), (some true)⟩

/-- `iframe`, web_custom_data.rs 1598-1691. -/
def tag_iframe (doc : Nat → Str) : TagData :=
  ⟨b!"iframe", (mark doc 308),
    [⟨b!"src", (mark doc 309), none, none, none⟩,
     ⟨b!"srcdoc", (mark doc 310), none, none, none⟩,
     ⟨b!"name", (mark doc 311), none, none, none⟩,
     ⟨b!"sandbox", (mark doc 312), (some b!"sb"), none, none⟩,
     ⟨b!"seamless", none, (some b!"v"), none, none⟩,
     ⟨b!"allowfullscreen", (mark doc 313), (some b!"v"), none, none⟩,
     ⟨b!"width", (mark doc 314), none, none, none⟩,
     ⟨b!"height", (mark doc 315), none, none, none⟩,
     ⟨b!"allow", (str doc 316), none, none, none⟩,
     ⟨b!"allowpaymentrequest", (str doc 317), none, none, none⟩,
     ⟨b!"allowpaymentrequest", (str doc 318), none, none, none⟩,
     ⟨b!"csp", (str doc 319), none, none, none⟩,
     ⟨b!"importance", (str doc 320), none, none, none⟩,
     ⟨b!"referrerpolicy", (str doc 321), none, none, none⟩], (some [⟨doc 322, doc 323⟩]), none⟩

/-- `embed`, web_custom_data.rs 1692-1735. -/
def tag_embed (doc : Nat → Str) : TagData :=
  ⟨b!"embed", (mark doc 324),
    [⟨b!"src", (mark doc 325), none, none, none⟩,
     ⟨b!"type", (mark doc 326), none, none, none⟩,
     ⟨b!"width", (mark doc 327), none, none, none⟩,
     ⟨b!"height", (mark doc 328), none, none, none⟩], (some [⟨doc 329, doc 330⟩]), (some true)⟩

/-- `object`, web_custom_data.rs 1736-1839. -/
def tag_object (doc : Nat → Str) : TagData :=
  ⟨b!"object", (mark doc 331),
    [⟨b!"data", (mark doc 332), none, none, none⟩,
     ⟨b!"type", (mark doc 333), none, none, none⟩,
     ⟨b!"typemustmatch", (mark doc 334), (some b!"v"), none, none⟩,
     ⟨b!"name", (mark doc 335), none, none, none⟩,
     ⟨b!"usemap", (mark doc 336), none, none, none⟩,
     ⟨b!"form", (mark doc 337), none, none, none⟩,
     ⟨b!"width", (mark doc 338), none, none, none⟩,
     ⟨b!"height", (mark doc 339), none, none, none⟩,
     ⟨b!"archive", (str doc 340), none, none, none⟩,
     ⟨b!"border", (str doc 341), none, none, none⟩,
     ⟨b!"classid", (str doc 342), none, none, none⟩,
     ⟨b!"codebase", (str doc 343), none, none, none⟩,
     ⟨b!"codetype", (str doc 344), none, none, none⟩,
     ⟨b!"declare", (str doc 345), none, none, none⟩,
     ⟨b!"standby", (str doc 346), none, none, none⟩,
     ⟨b!"tabindex", (str doc 347), none, none, none⟩], (some [⟨doc 348, doc 349⟩]), none⟩

/-- `param`, web_custom_data.rs 1840-1877. -/
def tag_param (doc : Nat → Str) : TagData :=
  ⟨b!"param", (mark doc 350),
    [⟨b!"name", (mark doc 351), none, none, none⟩,
     ⟨b!"value", (mark doc 352), none, none, none⟩,
     ⟨b!"type", (str doc 353), none, none, none⟩,
     ⟨b!"valuetype", (str doc 354), none, none, none⟩], (some [⟨doc 355, doc 356⟩]), (some true)⟩

/-- `video`, web_custom_data.rs 1878-1935. -/
def tag_video (doc : Nat → Str) : TagData :=
  ⟨b!"video", (mark doc 357),
    [⟨b!"src", none, none, none, none⟩,
     ⟨b!"crossorigin", none, (some b!"xo"), none, none⟩,
     ⟨b!"poster", none, none, none, none⟩,
     ⟨b!"preload", none, (some b!"pl"), none, none⟩,
     ⟨b!"autoplay", (mark doc 358), (some b!"v"), none, none⟩,
     ⟨b!"mediagroup", none, none, none, none⟩,
     ⟨b!"loop", none, (some b!"v"), none, none⟩,
     ⟨b!"muted", none, (some b!"v"), none, none⟩,
     ⟨b!"controls", none, (some b!"v"), none, none⟩,
     ⟨b!"width", none, none, none, none⟩,
     ⟨b!"height", none, none, none, none⟩], (some [⟨doc 359, doc 360⟩]), none⟩

/-- `audio`, web_custom_data.rs 1936-2008. -/
def tag_audio (doc : Nat → Str) : TagData :=
  ⟨b!"audio", (mark doc 361),
    [⟨b!"src", (mark doc 362), none, none, none⟩,
     ⟨b!"crossorigin", (mark doc 363), (some b!"xo"), none, none⟩,
     ⟨b!"preload", (mark doc 364), (some b!"pl"), none, none⟩,
     ⟨b!"autoplay", (mark doc 365), (some b!"v"), none, none⟩,
     ⟨b!"mediagroup", none, none, none, none⟩,
     ⟨b!"loop", (mark doc 366), (some b!"v"), none, none⟩,
     ⟨b!"muted", (mark doc 367), (some b!"v"), none, none⟩,
     ⟨b!"controls", (mark doc 368), (some b!"v"), none, none⟩], (some [⟨doc 369, doc 370⟩]), none⟩

/-- `source`, web_custom_data.rs 2009-2050. -/
def tag_source (doc : Nat → Str) : TagData :=
  ⟨b!"source", (mark doc 371),
    [⟨b!"src", (mark doc 372), none, none, none⟩,
     ⟨b!"type", (mark doc 373), none, none, none⟩,
     ⟨b!"sizes", (str doc 374), none, none, none⟩,
     ⟨b!"srcset", (str doc 375), none, none, none⟩,
     ⟨b!"media", (str doc 376), none, none, none⟩], (some [⟨doc 377, doc 378⟩]), (some true)⟩

/-- `track`, web_custom_data.rs 2051-2103. -/
def tag_track (doc : Nat → Str) : TagData :=
  ⟨b!"track", (mark doc 379),
    [⟨b!"default", (mark doc 380), (some b!"v"), none, none⟩,
     ⟨b!"kind", (mark doc 381), (some b!"tk"), none, none⟩,
     ⟨b!"label", (mark doc 382), none, none, none⟩,
     ⟨b!"src", (mark doc 383), none, none, none⟩,
     ⟨b!"srclang", (mark doc 384), none, none, none⟩], (some [⟨doc 385, doc 386⟩]), (some true)⟩

/-- `map`, web_custom_data.rs 2104-2125. -/
def tag_map (doc : Nat → Str) : TagData :=
  ⟨b!"map", (mark doc 387),
    [⟨b!"name", (mark doc 388), none, none, none⟩], (some [⟨doc 389, doc 390⟩]), none⟩

/-- `area`, web_custom_data.rs 2126-2177. -/
def tag_area (doc : Nat → Str) : TagData :=
  ⟨b!"area", (mark doc 391),
    [⟨b!"alt", none, none, none, none⟩,
     ⟨b!"coords", none, none, none, none⟩,
     ⟨b!"shape", none, (some b!"sh"), none, none⟩,
     ⟨b!"href", none, none, none, none⟩,
     ⟨b!"target", none, (some b!"target"), none, none⟩,
     ⟨b!"download", none, none, none, none⟩,
     ⟨b!"ping", none, none, none, none⟩,
     ⟨b!"rel", none, none, none, none⟩,
     ⟨b!"hreflang", none, none, none, none⟩,
     ⟨b!"type", none, none, none, none⟩,
     ⟨b!"accesskey", (str doc 392), none, none, none⟩], (some [⟨doc 393, doc 394⟩]), (some true)⟩

/-- `table`, web_custom_data.rs 2178-2199. -/
def tag_table (doc : Nat → Str) : TagData :=
  ⟨b!"table", (mark doc 395),
    [⟨b!"border", none, none, none, none⟩,
     ⟨b!"align", (str doc 396), none, none, none⟩], (some [⟨doc 397, doc 398⟩]), none⟩

/-- `caption`, web_custom_data.rs 2200-2218. -/
def tag_caption (doc : Nat → Str) : TagData :=
  ⟨b!"caption", (mark doc 399),
    [⟨b!"align", (str doc 400), none, none, none⟩], (some [⟨doc 401, doc 402⟩]), none⟩

/-- `colgroup`, web_custom_data.rs 2219-2240. -/
def tag_colgroup (doc : Nat → Str) : TagData :=
  ⟨b!"colgroup", (mark doc 403),
    [⟨b!"span", none, none, none, none⟩,
     ⟨b!"align", (str doc 404), none, none, none⟩], (some [⟨doc 405, doc 406⟩]), none⟩

/-- `col`, web_custom_data.rs 2241-2263. -/
def tag_col (doc : Nat → Str) : TagData :=
  ⟨b!"col", (mark doc 407),
    [⟨b!"span", none, none, none, none⟩,
     ⟨b!"align", (str doc 408), none, none, none⟩], (some [⟨doc 409, doc 410⟩]), (some true)⟩

/-- `tbody`, web_custom_data.rs 2264-2282. -/
def tag_tbody (doc : Nat → Str) : TagData :=
  ⟨b!"tbody", (mark doc 411),
    [⟨b!"align", (str doc 412), none, none, none⟩], (some [⟨doc 413, doc 414⟩]), none⟩

/-- `thead`, web_custom_data.rs 2283-2301. -/
def tag_thead (doc : Nat → Str) : TagData :=
  ⟨b!"thead", (mark doc 415),
    [⟨b!"align", (str doc 416), none, none, none⟩], (some [⟨doc 417, doc 418⟩]), none⟩

/-- `tfoot`, web_custom_data.rs 2302-2320. -/
def tag_tfoot (doc : Nat → Str) : TagData :=
  ⟨b!"tfoot", (mark doc 419),
    [⟨b!"align", (str doc 420), none, none, none⟩], (some [⟨doc 421, doc 422⟩]), none⟩

/-- `tr`, web_custom_data.rs 2321-2339. -/
def tag_tr (doc : Nat → Str) : TagData :=
  ⟨b!"tr", (mark doc 423),
    [⟨b!"align", (str doc 424), none, none, none⟩], (some [⟨doc 425, doc 426⟩]), none⟩

/-- `td`, web_custom_data.rs 2340-2379. -/
def tag_td (doc : Nat → Str) : TagData :=
  ⟨b!"td", (mark doc 427),
    [⟨b!"colspan", none, none, none, none⟩,
     ⟨b!"rowspan", none, none, none, none⟩,
     ⟨b!"headers", none, none, none, none⟩,
     ⟨b!"abbr", (str doc 428), none, none, none⟩,
     ⟨b!"align", (str doc 429), none, none, none⟩,
     ⟨b!"axis", (str doc 430), none, none, none⟩,
     ⟨b!"bgcolor", (str doc 431), none, none, none⟩], (some [⟨doc 432, doc 433⟩]), none⟩

/-- `th`, web_custom_data.rs 2380-2429. -/
def tag_th (doc : Nat → Str) : TagData :=
  ⟨b!"th", (mark doc 434),
    [⟨b!"colspan", none, none, none, none⟩,
     ⟨b!"rowspan", none, none, none, none⟩,
     ⟨b!"headers", none, none, none, none⟩,
     ⟨b!"scope", none, (some b!"s"), none, none⟩,
     ⟨b!"sorted", none, none, none, none⟩,
     ⟨b!"abbr", (mark doc 435), none, none, none⟩,
     ⟨b!"align", (str doc 436), none, none, none⟩,
     ⟨b!"axis", (str doc 437), none, none, none⟩,
     ⟨b!"bgcolor", (str doc 438), none, none, none⟩], (some [⟨doc 439, doc 440⟩]), none⟩

/-- `form`, web_custom_data.rs 2430-2513. -/
def tag_form (doc : Nat → Str) : TagData :=
  ⟨b!"form", (mark doc 441),
    [⟨b!"accept-charset", (mark doc 442), none, none, none⟩,
     ⟨b!"action", (mark doc 443), none, none, none⟩,
     ⟨b!"autocomplete", (mark doc 444), (some b!"o"), none, none⟩,
     ⟨b!"enctype", (mark doc 445), (some b!"et"), none, none⟩,
     ⟨b!"method", (mark doc 446), (some b!"m"), none, none⟩,
     ⟨b!"name", (mark doc 447), none, none, none⟩,
     ⟨b!"novalidate", (mark doc 448), (some b!"v"), none, none⟩,
     ⟨b!"target", (mark doc 449), (some b!"target"), none, none⟩,
     ⟨b!"accept", (str doc 450), none, none, none⟩,
     ⟨b!"autocapitalize", (str doc 451), none, none, none⟩], (some [⟨doc 452, doc 453⟩]), none⟩

/-- `label`, web_custom_data.rs 2514-2542. -/
def tag_label (doc : Nat → Str) : TagData :=
  ⟨b!"label", (mark doc 454),
    [⟨b!"form", (mark doc 455), none, none, none⟩,
     ⟨b!"for", (mark doc 456), none, none, none⟩], (some [⟨doc 457, doc 458⟩]), none⟩

/-- `input`, web_custom_data.rs 2543-2666. -/
def tag_input (doc : Nat → Str) : TagData :=
  ⟨b!"input", (mark doc 459),
    [⟨b!"accept", none, none, none, none⟩,
     ⟨b!"alt", none, none, none, none⟩,
     ⟨b!"autocomplete", none, (some b!"inputautocomplete"), none, none⟩,
     ⟨b!"autofocus", none, (some b!"v"), none, none⟩,
     ⟨b!"checked", none, (some b!"v"), none, none⟩,
     ⟨b!"dirname", none, none, none, none⟩,
     ⟨b!"disabled", none, (some b!"v"), none, none⟩,
     ⟨b!"form", none, none, none, none⟩,
     ⟨b!"formaction", none, none, none, none⟩,
     ⟨b!"formenctype", none, (some b!"et"), none, none⟩,
     ⟨b!"formmethod", none, (some b!"fm"), none, none⟩,
     ⟨b!"formnovalidate", none, (some b!"v"), none, none⟩,
     ⟨b!"formtarget", none, none, none, none⟩,
     ⟨b!"height", none, none, none, none⟩,
     ⟨b!"inputmode", none, (some b!"im"), none, none⟩,
     ⟨b!"list", none, none, none, none⟩,
     ⟨b!"max", none, none, none, none⟩,
     ⟨b!"maxlength", none, none, none, none⟩,
     ⟨b!"min", none, none, none, none⟩,
     ⟨b!"minlength", none, none, none, none⟩,
     ⟨b!"multiple", none, (some b!"v"), none, none⟩,
     ⟨b!"name", none, none, none, none⟩,
     ⟨b!"pattern", none, none, none, none⟩,
     ⟨b!"placeholder", none, none, none, none⟩,
     ⟨b!"readonly", none, (some b!"v"), none, none⟩,
     ⟨b!"required", none, (some b!"v"), none, none⟩,
     ⟨b!"size", none, none, none, none⟩,
     ⟨b!"src", none, none, none, none⟩,
     ⟨b!"step", none, none, none, none⟩,
     ⟨b!"type", none, (some b!"t"), none, none⟩,
     ⟨b!"value", none, none, none, none⟩,
     ⟨b!"width", none, none, none, none⟩], (some [⟨doc 460, doc 461⟩]), (some true)⟩

/-- `button`, web_custom_data.rs 2667-2768. -/
def tag_button (doc : Nat → Str) : TagData :=
  ⟨b!"button", (mark doc 462),
    [⟨b!"autofocus", (mark doc 463), (some b!"v"), none, none⟩,
     ⟨b!"disabled", (mark doc 464), (some b!"v"), none, none⟩,
     ⟨b!"form", (mark doc 465), none, none, none⟩,
     ⟨b!"formaction", (mark doc 466), none, none, none⟩,
     ⟨b!"formenctype", (mark doc 467), (some b!"et"), none, none⟩,
     ⟨b!"formmethod", (mark doc 468), (some b!"fm"), none, none⟩,
     ⟨b!"formnovalidate", (mark doc 469), (some b!"v"), none, none⟩,
     ⟨b!"formtarget", (mark doc 470), none, none, none⟩,
     ⟨b!"name", (mark doc 471), none, none, none⟩,
     ⟨b!"type", (mark doc 472), (some b!"bt"), none, none⟩,
     ⟨b!"value", (mark doc 473), none, none, none⟩,
     ⟨b!"autocomplete", (str doc 474), none, none, none⟩], (some [⟨doc 475, doc 476⟩]), none⟩

/-- `select`, web_custom_data.rs 2769-2844. -/
def tag_select (doc : Nat → Str) : TagData :=
  ⟨b!"select", (mark doc 477),
    [⟨b!"autocomplete", (mark doc 478), (some b!"inputautocomplete"), none, none⟩,
     ⟨b!"autofocus", (mark doc 479), (some b!"v"), none, none⟩,
     ⟨b!"disabled", (mark doc 480), (some b!"v"), none, none⟩,
     ⟨b!"form", (mark doc 481), none, none, none⟩,
     ⟨b!"multiple", (mark doc 482), (some b!"v"), none, none⟩,
     ⟨b!"name", (mark doc 483), none, none, none⟩,
     ⟨b!"required", (mark doc 484), (some b!"v"), none, none⟩,
     ⟨b!"size", (mark doc 485), none, none, none⟩], (some [⟨doc 486, doc 487⟩]), none⟩

/-- `datalist`, web_custom_data.rs 2845-2858. -/
def tag_datalist (doc : Nat → Str) : TagData :=
  ⟨b!"datalist", (mark doc 488),
    [], (some [⟨doc 489, doc 490⟩]), none⟩

/-- `optgroup`, web_custom_data.rs 2859-2888. -/
def tag_optgroup (doc : Nat → Str) : TagData :=
  ⟨b!"optgroup", (mark doc 491),
    [⟨b!"disabled", (mark doc 492), (some b!"v"), none, none⟩,
     ⟨b!"label", (mark doc 493), none, none, none⟩], (some [⟨doc 494, doc 495⟩]), none⟩

/-- `option`, web_custom_data.rs 2889-2933. -/
def tag_option (doc : Nat → Str) : TagData :=
  ⟨b!"option", (mark doc 496),
    [⟨b!"disabled", (mark doc 497), (some b!"v"), none, none⟩,
     ⟨b!"label", (mark doc 498), none, none, none⟩,
     ⟨b!"selected", (mark doc 499), (some b!"v"), none, none⟩,
     ⟨b!"value", (mark doc 500), none, none, none⟩], (some [⟨doc 501, doc 502⟩]), none⟩

/-- `textarea`, web_custom_data.rs 2934-3060. -/
def tag_textarea (doc : Nat → Str) : TagData :=
  ⟨b!"textarea", (mark doc 503),
    [⟨b!"autocomplete", (mark doc 504), (some b!"inputautocomplete"), none, none⟩,
     ⟨b!"autofocus", (mark doc 505), (some b!"v"), none, none⟩,
     ⟨b!"cols", (mark doc 506), none, none, none⟩,
     ⟨b!"dirname", none, none, none, none⟩,
     ⟨b!"disabled", (mark doc 507), (some b!"v"), none, none⟩,
     ⟨b!"form", (mark doc 508), none, none, none⟩,
     ⟨b!"inputmode", none, (some b!"im"), none, none⟩,
     ⟨b!"maxlength", (mark doc 509), none, none, none⟩,
     ⟨b!"minlength", (mark doc 510), none, none, none⟩,
     ⟨b!"name", (mark doc 511), none, none, none⟩,
     ⟨b!"placeholder", (mark doc 512), none, none, none⟩,
     ⟨b!"readonly", (mark doc 513), (some b!"v"), none, none⟩,
     ⟨b!"required", (mark doc 514), (some b!"v"), none, none⟩,
     ⟨b!"rows", (mark doc 515), none, none, none⟩,
     ⟨b!"wrap", (mark doc 516), (some b!"w"), none, none⟩,
     ⟨b!"autocapitalize", (str doc 517), none, none, none⟩,
     ⟨b!"spellcheck", (str doc 518), none, none, none⟩], (some [⟨doc 519, doc 520⟩]), none⟩

/-- `output`, web_custom_data.rs 3061-3096. -/
def tag_output (doc : Nat → Str) : TagData :=
  ⟨b!"output", (mark doc 521),
    [⟨b!"for", (mark doc 522), none, none, none⟩,
     ⟨b!"form", (mark doc 523), none, none, none⟩,
     ⟨b!"name", (mark doc 524), none, none, none⟩], (some [⟨doc 525, doc 526⟩]), none⟩

/-- `progress`, web_custom_data.rs 3097-3125. -/
def tag_progress (doc : Nat → Str) : TagData :=
  ⟨b!"progress", (mark doc 527),
    [⟨b!"value", (mark doc 528), none, none, none⟩,
     ⟨b!"max", (mark doc 529), none, none, none⟩], (some [⟨doc 530, doc 531⟩]), none⟩

/-- `meter`, web_custom_data.rs 3126-3186. -/
def tag_meter (doc : Nat → Str) : TagData :=
  ⟨b!"meter", (mark doc 532),
    [⟨b!"value", (mark doc 533), none, none, none⟩,
     ⟨b!"min", (mark doc 534), none, none, none⟩,
     ⟨b!"max", (mark doc 535), none, none, none⟩,
     ⟨b!"low", (mark doc 536), none, none, none⟩,
     ⟨b!"high", (mark doc 537), none, none, none⟩,
     ⟨b!"optimum", (mark doc 538), none, none, none⟩,
     ⟨b!"form", (str doc 539), none, none, none⟩], (some [⟨doc 540, doc 541⟩]), none⟩

/-- `fieldset`, web_custom_data.rs 3187-3223. -/
def tag_fieldset (doc : Nat → Str) : TagData :=
  ⟨b!"fieldset", (mark doc 542),
    [⟨b!"disabled", (mark doc 543), (some b!"v"), none, none⟩,
     ⟨b!"form", (mark doc 544), none, none, none⟩,
     ⟨b!"name", (mark doc 545), none, none, none⟩], (some [⟨doc 546, doc 547⟩]), none⟩

/-- `legend`, web_custom_data.rs 3224-3237. -/
def tag_legend (doc : Nat → Str) : TagData :=
  ⟨b!"legend", (mark doc 548),
    [], (some [⟨doc 549, doc 550⟩]), none⟩

/-- `details`, web_custom_data.rs 3238-3260. -/
def tag_details (doc : Nat → Str) : TagData :=
  ⟨b!"details", (mark doc 551),
    [⟨b!"open", (mark doc 552), (some b!"v"), none, none⟩], (some [⟨doc 553, doc 554⟩]), none⟩

/-- `summary`, web_custom_data.rs 3261-3274. -/
def tag_summary (doc : Nat → Str) : TagData :=
  ⟨b!"summary", (mark doc 555),
    [], (some [⟨doc 556, doc 557⟩]), none⟩

/-- `dialog`, web_custom_data.rs 3275-3293. -/
def tag_dialog (doc : Nat → Str) : TagData :=
  ⟨b!"dialog", (mark doc 558),
    [⟨b!"open", (str doc 559), none, none, none⟩], (some [⟨doc 560, doc 561⟩]), none⟩

/-- `script`, web_custom_data.rs 3294-3372. -/
def tag_script (doc : Nat → Str) : TagData :=
  ⟨b!"script", (mark doc 562),
    [⟨b!"src", (mark doc 563), none, none, none⟩,
     ⟨b!"type", (mark doc 564), none, none, none⟩,
     ⟨b!"charset", none, none, none, none⟩,
     ⟨b!"async", (mark doc 565), (some b!"v"), none, none⟩,
     ⟨b!"defer", (mark doc 566), (some b!"v"), none, none⟩,
     ⟨b!"crossorigin", (mark doc 567), (some b!"xo"), none, none⟩,
     ⟨b!"nonce", (mark doc 568), none, none, none⟩,
     ⟨b!"integrity", (str doc 569), none, none, none⟩,
     ⟨b!"nomodule", (str doc 570), none, none, none⟩,
     ⟨b!"referrerpolicy", (str doc 571), none, none, none⟩,
     ⟨b!"text", (str doc 572), none, none, none⟩], (some [⟨doc 573, doc 574⟩]), none⟩

/-- `noscript`, web_custom_data.rs 3373-3386. -/
def tag_noscript (doc : Nat → Str) : TagData :=
  ⟨b!"noscript", (mark doc 575),
    [], (some [⟨doc 576, doc 577⟩]), none⟩

/-- `template`, web_custom_data.rs 3387-3400. -/
def tag_template (doc : Nat → Str) : TagData :=
  ⟨b!"template", (mark doc 578),
    [], (some [⟨doc 579, doc 580⟩]), none⟩

/-- `canvas`, web_custom_data.rs 3401-3433. -/
def tag_canvas (doc : Nat → Str) : TagData :=
  ⟨b!"canvas", (mark doc 581),
    [⟨b!"width", (mark doc 582), none, none, none⟩,
     ⟨b!"height", (mark doc 583), none, none, none⟩,
     ⟨b!"moz-opaque", (str doc 584), none, none, none⟩], (some [⟨doc 585, doc 586⟩]), none⟩

/-- `slot`, web_custom_data.rs 3434-3455. -/
def tag_slot (doc : Nat → Str) : TagData :=
  ⟨b!"slot", (mark doc 587),
    [⟨b!"name", (mark doc 588), none, none, none⟩], (some [⟨doc 589, doc 590⟩]), none⟩

/-- `data`, web_custom_data.rs 3456-3477. -/
def tag_data (doc : Nat → Str) : TagData :=
  ⟨b!"data", (mark doc 591),
    [⟨b!"value", (mark doc 592), none, none, none⟩], (some [⟨doc 593, doc 594⟩]), none⟩

/-- `hgroup`, web_custom_data.rs 3478-3491. -/
def tag_hgroup (doc : Nat → Str) : TagData :=
  ⟨b!"hgroup", (mark doc 595),
    [], (some [⟨doc 596, doc 597⟩]), none⟩

/-- `menu`, web_custom_data.rs 3492-3505. -/
def tag_menu (doc : Nat → Str) : TagData :=
  ⟨b!"menu", (mark doc 598),
    [], (some [⟨doc 599, doc 600⟩]), none⟩

/-- The global attributes, web_custom_data.rs 3508-4948. -/
def globals (doc : Nat → Str) : List AttributeData :=
  [⟨b!"accesskey", (mark doc 601), none, none, (some [⟨doc 602, doc 603⟩])⟩,
   ⟨b!"autocapitalize", (mark doc 604), none, none, (some [⟨doc 605, doc 606⟩])⟩,
   ⟨b!"class", (mark doc 607), none, none, (some [⟨doc 608, doc 609⟩])⟩,
   ⟨b!"contenteditable", (mark doc 610), none, none, (some [⟨doc 611, doc 612⟩])⟩,
   ⟨b!"contextmenu", (mark doc 613), none, none, (some [⟨doc 614, doc 615⟩])⟩,
   ⟨b!"dir", (mark doc 616), (some b!"d"), none, (some [⟨doc 617, doc 618⟩])⟩,
   ⟨b!"draggable", (mark doc 619), (some b!"b"), none, (some [⟨doc 620, doc 621⟩])⟩,
   ⟨b!"dropzone", (mark doc 622), none, none, none⟩,
   ⟨b!"exportparts", (mark doc 623), none, none, (some [⟨doc 624, doc 625⟩])⟩,
   ⟨b!"hidden", (mark doc 626), (some b!"v"), none, (some [⟨doc 627, doc 628⟩])⟩,
   ⟨b!"id", (mark doc 629), none, none, (some [⟨doc 630, doc 631⟩])⟩,
   ⟨b!"inputmode", (mark doc 632), none, none, (some [⟨doc 633, doc 634⟩])⟩,
   ⟨b!"is", (mark doc 635), none, none, (some [⟨doc 636, doc 637⟩])⟩,
   ⟨b!"itemid", (mark doc 638), none, none, (some [⟨doc 639, doc 640⟩])⟩,
   ⟨b!"itemprop", (mark doc 641), none, none, (some [⟨doc 642, doc 643⟩])⟩,
   ⟨b!"itemref", (mark doc 644), none, none, (some [⟨doc 645, doc 646⟩])⟩,
   ⟨b!"itemscope", (mark doc 647), (some b!"v"), none, (some [⟨doc 648, doc 649⟩])⟩,
   ⟨b!"itemtype", (mark doc 650), none, none, (some [⟨doc 651, doc 652⟩])⟩,
   ⟨b!"lang", (mark doc 653), none, none, (some [⟨doc 654, doc 655⟩])⟩,
   ⟨b!"part", (mark doc 656), none, none, (some [⟨doc 657, doc 658⟩])⟩,
   ⟨b!"role", none, (some b!"roles"), none, none⟩,
   ⟨b!"slot", (mark doc 659), none, none, (some [⟨doc 660, doc 661⟩])⟩,
   ⟨b!"spellcheck", (mark doc 662), (some b!"b"), none, (some [⟨doc 663, doc 664⟩])⟩,
   ⟨b!"style", (mark doc 665), none, none, (some [⟨doc 666, doc 667⟩])⟩,
   ⟨b!"tabindex", (mark doc 668), none, none, (some [⟨doc 669, doc 670⟩])⟩,
   ⟨b!"title", (mark doc 671), none, none, (some [⟨doc 672, doc 673⟩])⟩,
   ⟨b!"translate", (mark doc 674), (some b!"y"), none, (some [⟨doc 675, doc 676⟩])⟩,
   ⟨b!"onabort", (mark doc 677), none, none, none⟩,
   ⟨b!"onblur", (mark doc 678), none, none, none⟩,
   ⟨b!"oncanplay", (mark doc 679), none, none, none⟩,
   ⟨b!"oncanplaythrough", (mark doc 680), none, none, none⟩,
   ⟨b!"onchange", (mark doc 681), none, none, none⟩,
   ⟨b!"onclick", (mark doc 682), none, none, none⟩,
   ⟨b!"oncontextmenu", (mark doc 683), none, none, none⟩,
   ⟨b!"ondblclick", (mark doc 684), none, none, none⟩,
   ⟨b!"ondrag", (mark doc 685), none, none, none⟩,
   ⟨b!"ondragend", (mark doc 686), none, none, none⟩,
   ⟨b!"ondragenter", (mark doc 687), none, none, none⟩,
   ⟨b!"ondragleave", (mark doc 688), none, none, none⟩,
   ⟨b!"ondragover", (mark doc 689), none, none, none⟩,
   ⟨b!"ondragstart", (mark doc 690), none, none, none⟩,
   ⟨b!"ondrop", (mark doc 691), none, none, none⟩,
   ⟨b!"ondurationchange", (mark doc 692), none, none, none⟩,
   ⟨b!"onemptied", (mark doc 693), none, none, none⟩,
   ⟨b!"onended", (mark doc 694), none, none, none⟩,
   ⟨b!"onerror", (mark doc 695), none, none, none⟩,
   ⟨b!"onfocus", (mark doc 696), none, none, none⟩,
   ⟨b!"onformchange", none, none, none, none⟩,
   ⟨b!"onforminput", none, none, none, none⟩,
   ⟨b!"oninput", (mark doc 697), none, none, none⟩,
   ⟨b!"oninvalid", (mark doc 698), none, none, none⟩,
   ⟨b!"onkeydown", (mark doc 699), none, none, none⟩,
   ⟨b!"onkeypress", (mark doc 700), none, none, none⟩,
   ⟨b!"onkeyup", (mark doc 701), none, none, none⟩,
   ⟨b!"onload", (mark doc 702), none, none, none⟩,
   ⟨b!"onloadeddata", (mark doc 703), none, none, none⟩,
   ⟨b!"onloadedmetadata", (mark doc 704), none, none, none⟩,
   ⟨b!"onloadstart", (mark doc 705), none, none, none⟩,
   ⟨b!"onmousedown", (mark doc 706), none, none, none⟩,
   ⟨b!"onmousemove", (mark doc 707), none, none, none⟩,
   ⟨b!"onmouseout", (mark doc 708), none, none, none⟩,
   ⟨b!"onmouseover", (mark doc 709), none, none, none⟩,
   ⟨b!"onmouseup", (mark doc 710), none, none, none⟩,
   ⟨b!"onmousewheel", none, none, none, none⟩,
   ⟨b!"onmouseenter", (mark doc 711), none, none, none⟩,
   ⟨b!"onmouseleave", (mark doc 712), none, none, none⟩,
   ⟨b!"onpause", (mark doc 713), none, none, none⟩,
   ⟨b!"onplay", (mark doc 714), none, none, none⟩,
   ⟨b!"onplaying", (mark doc 715), none, none, none⟩,
   ⟨b!"onprogress", (mark doc 716), none, none, none⟩,
   ⟨b!"onratechange", (mark doc 717), none, none, none⟩,
   ⟨b!"onreset", (mark doc 718), none, none, none⟩,
   ⟨b!"onresize", (mark doc 719), none, none, none⟩,
   ⟨b!"onreadystatechange", (mark doc 720), none, none, none⟩,
   ⟨b!"onscroll", (mark doc 721), none, none, none⟩,
   ⟨b!"onseeked", (mark doc 722), none, none, none⟩,
   ⟨b!"onseeking", (mark doc 723), none, none, none⟩,
   ⟨b!"onselect", (mark doc 724), none, none, none⟩,
   ⟨b!"onshow", (mark doc 725), none, none, none⟩,
   ⟨b!"onstalled", (mark doc 726), none, none, none⟩,
   ⟨b!"onsubmit", (mark doc 727), none, none, none⟩,
   ⟨b!"onsuspend", (mark doc 728), none, none, none⟩,
   ⟨b!"ontimeupdate", (mark doc 729), none, none, none⟩,
   ⟨b!"onvolumechange", (mark doc 730), none, none, none⟩,
   ⟨b!"onwaiting", (mark doc 731), none, none, none⟩,
   ⟨b!"onpointercancel", (mark doc 732), none, none, none⟩,
   ⟨b!"onpointerdown", (mark doc 733), none, none, none⟩,
   ⟨b!"onpointerenter", (mark doc 734), none, none, none⟩,
   ⟨b!"onpointerleave", (mark doc 735), none, none, none⟩,
   ⟨b!"onpointerlockchange", (mark doc 736), none, none, none⟩,
   ⟨b!"onpointerlockerror", (mark doc 737), none, none, none⟩,
   ⟨b!"onpointermove", (mark doc 738), none, none, none⟩,
   ⟨b!"onpointerout", (mark doc 739), none, none, none⟩,
   ⟨b!"onpointerover", (mark doc 740), none, none, none⟩,
   ⟨b!"onpointerup", (mark doc 741), none, none, none⟩,
   ⟨b!"aria-activedescendant", (mark doc 742), none, none, (some [⟨doc 743, doc 744⟩])⟩,
   ⟨b!"aria-atomic", (mark doc 745), (some b!"b"), none, (some [⟨doc 746, doc 747⟩])⟩,
   ⟨b!"aria-autocomplete", (mark doc 748), (some b!"autocomplete"), none, (some [⟨doc 749, doc 750⟩])⟩,
   ⟨b!"aria-busy", (mark doc 751), (some b!"b"), none, (some [⟨doc 752, doc 753⟩])⟩,
   ⟨b!"aria-checked", (mark doc 754), (some b!"tristate"), none, (some [⟨doc 755, doc 756⟩])⟩,
   ⟨b!"aria-colcount", (mark doc 757), none, none, (some [⟨doc 758, doc 759⟩])⟩,
   ⟨b!"aria-colindex", (mark doc 760), none, none, (some [⟨doc 761, doc 762⟩])⟩,
   ⟨b!"aria-colspan", (mark doc 763), none, none, (some [⟨doc 764, doc 765⟩])⟩,
   ⟨b!"aria-controls", (mark doc 766), none, none, (some [⟨doc 767, doc 768⟩])⟩,
   ⟨b!"aria-current", (mark doc 769), (some b!"current"), none, (some [⟨doc 770, doc 771⟩])⟩,
   ⟨b!"aria-describedby", (mark doc 772), none, none, (some [⟨doc 773, doc 774⟩])⟩,
   ⟨b!"aria-disabled", (mark doc 775), (some b!"b"), none, (some [⟨doc 776, doc 777⟩])⟩,
   ⟨b!"aria-dropeffect", (mark doc 778), (some b!"dropeffect"), none, (some [⟨doc 779, doc 780⟩])⟩,
   ⟨b!"aria-errormessage", (mark doc 781), none, none, (some [⟨doc 782, doc 783⟩])⟩,
   ⟨b!"aria-expanded", (mark doc 784), (some b!"u"), none, (some [⟨doc 785, doc 786⟩])⟩,
   ⟨b!"aria-flowto", (mark doc 787), none, none, (some [⟨doc 788, doc 789⟩])⟩,
   ⟨b!"aria-grabbed", (mark doc 790), (some b!"u"), none, (some [⟨doc 791, doc 792⟩])⟩,
   ⟨b!"aria-haspopup", (mark doc 793), (some b!"haspopup"), none, (some [⟨doc 794, doc 795⟩])⟩,
   ⟨b!"aria-hidden", (mark doc 796), (some b!"b"), none, (some [⟨doc 797, doc 798⟩])⟩,
   ⟨b!"aria-invalid", (mark doc 799), (some b!"invalid"), none, (some [⟨doc 800, doc 801⟩])⟩,
   ⟨b!"aria-label", (mark doc 802), none, none, (some [⟨doc 803, doc 804⟩])⟩,
   ⟨b!"aria-labelledby", (mark doc 805), none, none, (some [⟨doc 806, doc 807⟩])⟩,
   ⟨b!"aria-level", (mark doc 808), none, none, (some [⟨doc 809, doc 810⟩])⟩,
   ⟨b!"aria-live", (mark doc 811), (some b!"live"), none, (some [⟨doc 812, doc 813⟩])⟩,
   ⟨b!"aria-modal", (mark doc 814), (some b!"b"), none, (some [⟨doc 815, doc 816⟩])⟩,
   ⟨b!"aria-multiline", (mark doc 817), (some b!"b"), none, (some [⟨doc 818, doc 819⟩])⟩,
   ⟨b!"aria-multiselectable", (mark doc 820), (some b!"b"), none, (some [⟨doc 821, doc 822⟩])⟩,
   ⟨b!"aria-orientation", (mark doc 823), (some b!"orientation"), none, (some [⟨doc 824, doc 825⟩])⟩,
   ⟨b!"aria-owns", (mark doc 826), none, none, (some [⟨doc 827, doc 828⟩])⟩,
   ⟨b!"aria-placeholder", (mark doc 829), none, none, (some [⟨doc 830, doc 831⟩])⟩,
   ⟨b!"aria-posinset", (mark doc 832), none, none, (some [⟨doc 833, doc 834⟩])⟩,
   ⟨b!"aria-pressed", (mark doc 835), (some b!"tristate"), none, (some [⟨doc 836, doc 837⟩])⟩,
   ⟨b!"aria-readonly", (mark doc 838), (some b!"b"), none, (some [⟨doc 839, doc 840⟩])⟩,
   ⟨b!"aria-relevant", (mark doc 841), (some b!"relevant"), none, (some [⟨doc 842, doc 843⟩])⟩,
   ⟨b!"aria-required", (mark doc 844), (some b!"b"), none, (some [⟨doc 845, doc 846⟩])⟩,
   ⟨b!"aria-roledescription", (mark doc 847), none, none, (some [⟨doc 848, doc 849⟩])⟩,
   ⟨b!"aria-rowcount", (mark doc 850), none, none, (some [⟨doc 851, doc 852⟩])⟩,
   ⟨b!"aria-rowindex", (mark doc 853), none, none, (some [⟨doc 854, doc 855⟩])⟩,
   ⟨b!"aria-rowspan", (mark doc 856), none, none, (some [⟨doc 857, doc 858⟩])⟩,
   ⟨b!"aria-selected", (mark doc 859), (some b!"u"), none, (some [⟨doc 860, doc 861⟩])⟩,
   ⟨b!"aria-setsize", (mark doc 862), none, none, (some [⟨doc 863, doc 864⟩])⟩,
   ⟨b!"aria-sort", (mark doc 865), (some b!"sort"), none, (some [⟨doc 866, doc 867⟩])⟩,
   ⟨b!"aria-valuemax", (mark doc 868), none, none, (some [⟨doc 869, doc 870⟩])⟩,
   ⟨b!"aria-valuemin", (mark doc 871), none, none, (some [⟨doc 872, doc 873⟩])⟩,
   ⟨b!"aria-valuenow", (mark doc 874), none, none, (some [⟨doc 875, doc 876⟩])⟩,
   ⟨b!"aria-valuetext", (mark doc 877), none, none, (some [⟨doc 878, doc 879⟩])⟩,
   ⟨b!"aria-details", (mark doc 880), none, none, none⟩,
   ⟨b!"aria-keyshortcuts", (mark doc 881), none, none, none⟩]

/-- The value set `b`, web_custom_data.rs 4951-4961. -/
def set_b (doc : Nat → Str) : ValueSet :=
  ⟨b!"b", [⟨b!"true", none, none⟩,
    ⟨b!"false", none, none⟩]⟩

/-- The value set `u`, web_custom_data.rs 4962-4975. -/
def set_u (doc : Nat → Str) : ValueSet :=
  ⟨b!"u", [⟨b!"true", none, none⟩,
    ⟨b!"false", none, none⟩,
    ⟨b!"undefined", none, none⟩]⟩

/-- The value set `o`, web_custom_data.rs 4976-4986. -/
def set_o (doc : Nat → Str) : ValueSet :=
  ⟨b!"o", [⟨b!"on", none, none⟩,
    ⟨b!"off", none, none⟩]⟩

/-- The value set `y`, web_custom_data.rs 4987-4997. -/
def set_y (doc : Nat → Str) : ValueSet :=
  ⟨b!"y", [⟨b!"yes", none, none⟩,
    ⟨b!"no", none, none⟩]⟩

/-- The value set `w`, web_custom_data.rs 4998-5008. -/
def set_w (doc : Nat → Str) : ValueSet :=
  ⟨b!"w", [⟨b!"soft", none, none⟩,
    ⟨b!"hard", none, none⟩]⟩

/-- The value set `d`, web_custom_data.rs 5009-5022. -/
def set_d (doc : Nat → Str) : ValueSet :=
  ⟨b!"d", [⟨b!"ltr", none, none⟩,
    ⟨b!"rtl", none, none⟩,
    ⟨b!"auto", none, none⟩]⟩

/-- The value set `m`, web_custom_data.rs 5023-5048. -/
def set_m (doc : Nat → Str) : ValueSet :=
  ⟨b!"m", [⟨b!"get", (mark doc 882), none⟩,
    ⟨b!"post", (mark doc 883), none⟩,
    ⟨b!"dialog", (mark doc 884), none⟩]⟩

/-- The value set `fm`, web_custom_data.rs 5049-5059. -/
def set_fm (doc : Nat → Str) : ValueSet :=
  ⟨b!"fm", [⟨b!"get", none, none⟩,
    ⟨b!"post", none, none⟩]⟩

/-- The value set `s`, web_custom_data.rs 5060-5076. -/
def set_s (doc : Nat → Str) : ValueSet :=
  ⟨b!"s", [⟨b!"row", none, none⟩,
    ⟨b!"col", none, none⟩,
    ⟨b!"rowgroup", none, none⟩,
    ⟨b!"colgroup", none, none⟩]⟩

/-- The value set `t`, web_custom_data.rs 5077-5150. -/
def set_t (doc : Nat → Str) : ValueSet :=
  ⟨b!"t", [⟨b!"hidden", none, none⟩,
    ⟨b!"text", none, none⟩,
    ⟨b!"search", none, none⟩,
    ⟨b!"tel", none, none⟩,
    ⟨b!"url", none, none⟩,
    ⟨b!"email", none, none⟩,
    ⟨b!"password", none, none⟩,
    ⟨b!"datetime", none, none⟩,
    ⟨b!"date", none, none⟩,
    ⟨b!"month", none, none⟩,
    ⟨b!"week", none, none⟩,
    ⟨b!"time", none, none⟩,
    ⟨b!"datetime-local", none, none⟩,
    ⟨b!"number", none, none⟩,
    ⟨b!"range", none, none⟩,
    ⟨b!"color", none, none⟩,
    ⟨b!"checkbox", none, none⟩,
    ⟨b!"radio", none, none⟩,
    ⟨b!"file", none, none⟩,
    ⟨b!"submit", none, none⟩,
    ⟨b!"image", none, none⟩,
    ⟨b!"reset", none, none⟩,
    ⟨b!"button", none, none⟩]⟩

/-- The value set `im`, web_custom_data.rs 5151-5191. -/
def set_im (doc : Nat → Str) : ValueSet :=
  ⟨b!"im", [⟨b!"verbatim", none, none⟩,
    ⟨b!"latin", none, none⟩,
    ⟨b!"latin-name", none, none⟩,
    ⟨b!"latin-prose", none, none⟩,
    ⟨b!"full-width-latin", none, none⟩,
    ⟨b!"kana", none, none⟩,
    ⟨b!"kana-name", none, none⟩,
    ⟨b!"katakana", none, none⟩,
    ⟨b!"numeric", none, none⟩,
    ⟨b!"tel", none, none⟩,
    ⟨b!"email", none, none⟩,
    ⟨b!"url", none, none⟩]⟩

/-- The value set `bt`, web_custom_data.rs 5192-5208. -/
def set_bt (doc : Nat → Str) : ValueSet :=
  ⟨b!"bt", [⟨b!"button", none, none⟩,
    ⟨b!"submit", none, none⟩,
    ⟨b!"reset", none, none⟩,
    ⟨b!"menu", none, none⟩]⟩

/-- The value set `lt`, web_custom_data.rs 5209-5228. -/
def set_lt (doc : Nat → Str) : ValueSet :=
  ⟨b!"lt", [⟨b!"1", none, none⟩,
    ⟨b!"a", none, none⟩,
    ⟨b!"A", none, none⟩,
    ⟨b!"i", none, none⟩,
    ⟨b!"I", none, none⟩]⟩

/-- The value set `mt`, web_custom_data.rs 5229-5239. -/
def set_mt (doc : Nat → Str) : ValueSet :=
  ⟨b!"mt", [⟨b!"context", none, none⟩,
    ⟨b!"toolbar", none, none⟩]⟩

/-- The value set `mit`, web_custom_data.rs 5240-5253. -/
def set_mit (doc : Nat → Str) : ValueSet :=
  ⟨b!"mit", [⟨b!"command", none, none⟩,
    ⟨b!"checkbox", none, none⟩,
    ⟨b!"radio", none, none⟩]⟩

/-- The value set `et`, web_custom_data.rs 5254-5267. -/
def set_et (doc : Nat → Str) : ValueSet :=
  ⟨b!"et", [⟨b!"application/x-www-form-urlencoded", none, none⟩,
    ⟨b!"multipart/form-data", none, none⟩,
    ⟨b!"text/plain", none, none⟩]⟩

/-- The value set `tk`, web_custom_data.rs 5268-5287. -/
def set_tk (doc : Nat → Str) : ValueSet :=
  ⟨b!"tk", [⟨b!"subtitles", none, none⟩,
    ⟨b!"captions", none, none⟩,
    ⟨b!"descriptions", none, none⟩,
    ⟨b!"chapters", none, none⟩,
    ⟨b!"metadata", none, none⟩]⟩

/-- The value set `pl`, web_custom_data.rs 5288-5301. -/
def set_pl (doc : Nat → Str) : ValueSet :=
  ⟨b!"pl", [⟨b!"none", none, none⟩,
    ⟨b!"metadata", none, none⟩,
    ⟨b!"auto", none, none⟩]⟩

/-- The value set `sh`, web_custom_data.rs 5302-5318. -/
def set_sh (doc : Nat → Str) : ValueSet :=
  ⟨b!"sh", [⟨b!"circle", none, none⟩,
    ⟨b!"default", none, none⟩,
    ⟨b!"poly", none, none⟩,
    ⟨b!"rect", none, none⟩]⟩

/-- The value set `xo`, web_custom_data.rs 5319-5329. -/
def set_xo (doc : Nat → Str) : ValueSet :=
  ⟨b!"xo", [⟨b!"anonymous", none, none⟩,
    ⟨b!"use-credentials", none, none⟩]⟩

/-- The value set `target`, web_custom_data.rs 5330-5346. -/
def set_target (doc : Nat → Str) : ValueSet :=
  ⟨b!"target", [⟨b!"_self", none, none⟩,
    ⟨b!"_blank", none, none⟩,
    ⟨b!"_parent", none, none⟩,
    ⟨b!"_top", none, none⟩]⟩

/-- The value set `sb`, web_custom_data.rs 5347-5375. -/
def set_sb (doc : Nat → Str) : ValueSet :=
  ⟨b!"sb", [⟨b!"allow-forms", none, none⟩,
    ⟨b!"allow-modals", none, none⟩,
    ⟨b!"allow-pointer-lock", none, none⟩,
    ⟨b!"allow-popups", none, none⟩,
    ⟨b!"allow-popups-to-escape-sandbox", none, none⟩,
    ⟨b!"allow-same-origin", none, none⟩,
    ⟨b!"allow-scripts", none, none⟩,
    ⟨b!"allow-top-navigation", none, none⟩]⟩

/-- The value set `tristate`, web_custom_data.rs 5376-5392. -/
def set_tristate (doc : Nat → Str) : ValueSet :=
  ⟨b!"tristate", [⟨b!"true", none, none⟩,
    ⟨b!"false", none, none⟩,
    ⟨b!"mixed", none, none⟩,
    ⟨b!"undefined", none, none⟩]⟩

/-- The value set `inputautocomplete`, web_custom_data.rs 5393-5583. -/
def set_inputautocomplete (doc : Nat → Str) : ValueSet :=
  ⟨b!"inputautocomplete", [⟨b!"additional-name", none, none⟩,
    ⟨b!"address-level1", none, none⟩,
    ⟨b!"address-level2", none, none⟩,
    ⟨b!"address-level3", none, none⟩,
    ⟨b!"address-level4", none, none⟩,
    ⟨b!"address-line1", none, none⟩,
    ⟨b!"address-line2", none, none⟩,
    ⟨b!"address-line3", none, none⟩,
    ⟨b!"bday", none, none⟩,
    ⟨b!"bday-year", none, none⟩,
    ⟨b!"bday-day", none, none⟩,
    ⟨b!"bday-month", none, none⟩,
    ⟨b!"billing", none, none⟩,
    ⟨b!"cc-additional-name", none, none⟩,
    ⟨b!"cc-csc", none, none⟩,
    ⟨b!"cc-exp", none, none⟩,
    ⟨b!"cc-exp-month", none, none⟩,
    ⟨b!"cc-exp-year", none, none⟩,
    ⟨b!"cc-family-name", none, none⟩,
    ⟨b!"cc-given-name", none, none⟩,
    ⟨b!"cc-name", none, none⟩,
    ⟨b!"cc-number", none, none⟩,
    ⟨b!"cc-type", none, none⟩,
    ⟨b!"country", none, none⟩,
    ⟨b!"country-name", none, none⟩,
    ⟨b!"current-password", none, none⟩,
    ⟨b!"email", none, none⟩,
    ⟨b!"family-name", none, none⟩,
    ⟨b!"fax", none, none⟩,
    ⟨b!"given-name", none, none⟩,
    ⟨b!"home", none, none⟩,
    ⟨b!"honorific-prefix", none, none⟩,
    ⟨b!"honorific-suffix", none, none⟩,
    ⟨b!"impp", none, none⟩,
    ⟨b!"language", none, none⟩,
    ⟨b!"mobile", none, none⟩,
    ⟨b!"name", none, none⟩,
    ⟨b!"new-password", none, none⟩,
    ⟨b!"nickname", none, none⟩,
    ⟨b!"off", none, none⟩,
    ⟨b!"on", none, none⟩,
    ⟨b!"organization", none, none⟩,
    ⟨b!"organization-title", none, none⟩,
    ⟨b!"pager", none, none⟩,
    ⟨b!"photo", none, none⟩,
    ⟨b!"postal-code", none, none⟩,
    ⟨b!"sex", none, none⟩,
    ⟨b!"shipping", none, none⟩,
    ⟨b!"street-address", none, none⟩,
    ⟨b!"tel-area-code", none, none⟩,
    ⟨b!"tel", none, none⟩,
    ⟨b!"tel-country-code", none, none⟩,
    ⟨b!"tel-extension", none, none⟩,
    ⟨b!"tel-local", none, none⟩,
    ⟨b!"tel-local-prefix", none, none⟩,
    ⟨b!"tel-local-suffix", none, none⟩,
    ⟨b!"tel-national", none, none⟩,
    ⟨b!"transaction-amount", none, none⟩,
    ⟨b!"transaction-currency", none, none⟩,
    ⟨b!"url", none, none⟩,
    ⟨b!"username", none, none⟩,
    ⟨b!"work", none, none⟩]⟩

/-- The value set `autocomplete`, web_custom_data.rs 5584-5600. -/
def set_autocomplete (doc : Nat → Str) : ValueSet :=
  ⟨b!"autocomplete", [⟨b!"inline", none, none⟩,
    ⟨b!"list", none, none⟩,
    ⟨b!"both", none, none⟩,
    ⟨b!"none", none, none⟩]⟩

/-- The value set `current`, web_custom_data.rs 5601-5626. -/
def set_current (doc : Nat → Str) : ValueSet :=
  ⟨b!"current", [⟨b!"page", none, none⟩,
    ⟨b!"step", none, none⟩,
    ⟨b!"location", none, none⟩,
    ⟨b!"date", none, none⟩,
    ⟨b!"time", none, none⟩,
    ⟨b!"true", none, none⟩,
    ⟨b!"false", none, none⟩]⟩

/-- The value set `dropeffect`, web_custom_data.rs 5627-5649. -/
def set_dropeffect (doc : Nat → Str) : ValueSet :=
  ⟨b!"dropeffect", [⟨b!"copy", none, none⟩,
    ⟨b!"move", none, none⟩,
    ⟨b!"link", none, none⟩,
    ⟨b!"execute", none, none⟩,
    ⟨b!"popup", none, none⟩,
    ⟨b!"none", none, none⟩]⟩

/-- The value set `invalid`, web_custom_data.rs 5650-5666. -/
def set_invalid (doc : Nat → Str) : ValueSet :=
  ⟨b!"invalid", [⟨b!"grammar", none, none⟩,
    ⟨b!"false", none, none⟩,
    ⟨b!"spelling", none, none⟩,
    ⟨b!"true", none, none⟩]⟩

/-- The value set `live`, web_custom_data.rs 5667-5680. -/
def set_live (doc : Nat → Str) : ValueSet :=
  ⟨b!"live", [⟨b!"off", none, none⟩,
    ⟨b!"polite", none, none⟩,
    ⟨b!"assertive", none, none⟩]⟩

/-- The value set `orientation`, web_custom_data.rs 5681-5694. -/
def set_orientation (doc : Nat → Str) : ValueSet :=
  ⟨b!"orientation", [⟨b!"vertical", none, none⟩,
    ⟨b!"horizontal", none, none⟩,
    ⟨b!"undefined", none, none⟩]⟩

/-- The value set `relevant`, web_custom_data.rs 5695-5714. -/
def set_relevant (doc : Nat → Str) : ValueSet :=
  ⟨b!"relevant", [⟨b!"additions", none, none⟩,
    ⟨b!"removals", none, none⟩,
    ⟨b!"text", none, none⟩,
    ⟨b!"all", none, none⟩,
    ⟨b!"additions text", none, none⟩]⟩

/-- The value set `sort`, web_custom_data.rs 5715-5731. -/
def set_sort (doc : Nat → Str) : ValueSet :=
  ⟨b!"sort", [⟨b!"ascending", none, none⟩,
    ⟨b!"descending", none, none⟩,
    ⟨b!"none", none, none⟩,
    ⟨b!"other", none, none⟩]⟩

/-- The value set `roles`, web_custom_data.rs 5732-6066. -/
def set_roles (doc : Nat → Str) : ValueSet :=
  ⟨b!"roles", [⟨b!"alert", none, none⟩,
    ⟨b!"alertdialog", none, none⟩,
    ⟨b!"button", none, none⟩,
    ⟨b!"checkbox", none, none⟩,
    ⟨b!"dialog", none, none⟩,
    ⟨b!"gridcell", none, none⟩,
    ⟨b!"link", none, none⟩,
    ⟨b!"log", none, none⟩,
    ⟨b!"marquee", none, none⟩,
    ⟨b!"menuitem", none, none⟩,
    ⟨b!"menuitemcheckbox", none, none⟩,
    ⟨b!"menuitemradio", none, none⟩,
    ⟨b!"option", none, none⟩,
    ⟨b!"progressbar", none, none⟩,
    ⟨b!"radio", none, none⟩,
    ⟨b!"scrollbar", none, none⟩,
    ⟨b!"searchbox", none, none⟩,
    ⟨b!"slider", none, none⟩,
    ⟨b!"spinbutton", none, none⟩,
    ⟨b!"status", none, none⟩,
    ⟨b!"switch", none, none⟩,
    ⟨b!"tab", none, none⟩,
    ⟨b!"tabpanel", none, none⟩,
    ⟨b!"textbox", none, none⟩,
    ⟨b!"timer", none, none⟩,
    ⟨b!"tooltip", none, none⟩,
    ⟨b!"treeitem", none, none⟩,
    ⟨b!"combobox", none, none⟩,
    ⟨b!"grid", none, none⟩,
    ⟨b!"listbox", none, none⟩,
    ⟨b!"menu", none, none⟩,
    ⟨b!"menubar", none, none⟩,
    ⟨b!"radiogroup", none, none⟩,
    ⟨b!"tablist", none, none⟩,
    ⟨b!"tree", none, none⟩,
    ⟨b!"treegrid", none, none⟩,
    ⟨b!"application", none, none⟩,
    ⟨b!"article", none, none⟩,
    ⟨b!"cell", none, none⟩,
    ⟨b!"columnheader", none, none⟩,
    ⟨b!"definition", none, none⟩,
    ⟨b!"directory", none, none⟩,
    ⟨b!"document", none, none⟩,
    ⟨b!"feed", none, none⟩,
    ⟨b!"figure", none, none⟩,
    ⟨b!"group", none, none⟩,
    ⟨b!"heading", none, none⟩,
    ⟨b!"img", none, none⟩,
    ⟨b!"list", none, none⟩,
    ⟨b!"listitem", none, none⟩,
    ⟨b!"math", none, none⟩,
    ⟨b!"none", none, none⟩,
    ⟨b!"note", none, none⟩,
    ⟨b!"presentation", none, none⟩,
    ⟨b!"region", none, none⟩,
    ⟨b!"row", none, none⟩,
    ⟨b!"rowgroup", none, none⟩,
    ⟨b!"rowheader", none, none⟩,
    ⟨b!"separator", none, none⟩,
    ⟨b!"table", none, none⟩,
    ⟨b!"term", none, none⟩,
    ⟨b!"text", none, none⟩,
    ⟨b!"toolbar", none, none⟩,
    ⟨b!"banner", none, none⟩,
    ⟨b!"complementary", none, none⟩,
    ⟨b!"contentinfo", none, none⟩,
    ⟨b!"form", none, none⟩,
    ⟨b!"main", none, none⟩,
    ⟨b!"navigation", none, none⟩,
    ⟨b!"region", none, none⟩,
    ⟨b!"search", none, none⟩,
    ⟨b!"doc-abstract", none, none⟩,
    ⟨b!"doc-acknowledgments", none, none⟩,
    ⟨b!"doc-afterword", none, none⟩,
    ⟨b!"doc-appendix", none, none⟩,
    ⟨b!"doc-backlink", none, none⟩,
    ⟨b!"doc-biblioentry", none, none⟩,
    ⟨b!"doc-bibliography", none, none⟩,
    ⟨b!"doc-biblioref", none, none⟩,
    ⟨b!"doc-chapter", none, none⟩,
    ⟨b!"doc-colophon", none, none⟩,
    ⟨b!"doc-conclusion", none, none⟩,
    ⟨b!"doc-cover", none, none⟩,
    ⟨b!"doc-credit", none, none⟩,
    ⟨b!"doc-credits", none, none⟩,
    ⟨b!"doc-dedication", none, none⟩,
    ⟨b!"doc-endnote", none, none⟩,
    ⟨b!"doc-endnotes", none, none⟩,
    ⟨b!"doc-epigraph", none, none⟩,
    ⟨b!"doc-epilogue", none, none⟩,
    ⟨b!"doc-errata", none, none⟩,
    ⟨b!"doc-example", none, none⟩,
    ⟨b!"doc-footnote", none, none⟩,
    ⟨b!"doc-foreword", none, none⟩,
    ⟨b!"doc-glossary", none, none⟩,
    ⟨b!"doc-glossref", none, none⟩,
    ⟨b!"doc-index", none, none⟩,
    ⟨b!"doc-introduction", none, none⟩,
    ⟨b!"doc-noteref", none, none⟩,
    ⟨b!"doc-notice", none, none⟩,
    ⟨b!"doc-pagebreak", none, none⟩,
    ⟨b!"doc-pagelist", none, none⟩,
    ⟨b!"doc-part", none, none⟩,
    ⟨b!"doc-preface", none, none⟩,
    ⟨b!"doc-prologue", none, none⟩,
    ⟨b!"doc-pullquote", none, none⟩,
    ⟨b!"doc-qna", none, none⟩,
    ⟨b!"doc-subtitle", none, none⟩,
    ⟨b!"doc-tip", none, none⟩,
    ⟨b!"doc-toc", none, none⟩]⟩

/-- The value set `metanames`, web_custom_data.rs 6067-6104. -/
def set_metanames (doc : Nat → Str) : ValueSet :=
  ⟨b!"metanames", [⟨b!"application-name", none, none⟩,
    ⟨b!"author", none, none⟩,
    ⟨b!"description", none, none⟩,
    ⟨b!"format-detection", none, none⟩,
    ⟨b!"generator", none, none⟩,
    ⟨b!"keywords", none, none⟩,
    ⟨b!"publisher", none, none⟩,
    ⟨b!"referrer", none, none⟩,
    ⟨b!"robots", none, none⟩,
    ⟨b!"theme-color", none, none⟩,
    ⟨b!"viewport", none, none⟩]⟩

/-- The value set `haspopup`, web_custom_data.rs 6105-6158. -/
def set_haspopup (doc : Nat → Str) : ValueSet :=
  ⟨b!"haspopup", [⟨b!"false", (mark doc 885), none⟩,
    ⟨b!"true", (mark doc 886), none⟩,
    ⟨b!"menu", (mark doc 887), none⟩,
    ⟨b!"listbox", (mark doc 888), none⟩,
    ⟨b!"tree", (mark doc 889), none⟩,
    ⟨b!"grid", (mark doc 890), none⟩,
    ⟨b!"dialog", (mark doc 891), none⟩]⟩

/-- The value set `decoding`, web_custom_data.rs 6159-6172. -/
def set_decoding (doc : Nat → Str) : ValueSet :=
  ⟨b!"decoding", [⟨b!"sync", none, none⟩,
    ⟨b!"async", none, none⟩,
    ⟨b!"auto", none, none⟩]⟩

/-- The value set `loading`, web_custom_data.rs 6173-6191. -/
def set_loading (doc : Nat → Str) : ValueSet :=
  ⟨b!"loading", [⟨b!"eager", (mark doc 892), none⟩,
    ⟨b!"lazy", (mark doc 893), none⟩]⟩

/-- The value set `referrerpolicy`, web_custom_data.rs 6192-6220. -/
def set_referrerpolicy (doc : Nat → Str) : ValueSet :=
  ⟨b!"referrerpolicy", [⟨b!"no-referrer", none, none⟩,
    ⟨b!"no-referrer-when-downgrade", none, none⟩,
    ⟨b!"origin", none, none⟩,
    ⟨b!"origin-when-cross-origin", none, none⟩,
    ⟨b!"same-origin", none, none⟩,
    ⟨b!"strict-origin", none, none⟩,
    ⟨b!"strict-origin-when-cross-origin", none, none⟩,
    ⟨b!"unsafe-url", none, none⟩]⟩

/-- The tags, web_custom_data.rs 13-3505. -/
def tags (doc : Nat → Str) : List TagData :=
  [tag_html doc, tag_head doc, tag_title doc, tag_base doc, tag_link doc, tag_meta doc, tag_style doc,
   tag_body doc, tag_article doc, tag_section doc, tag_nav doc, tag_aside doc, tag_h1 doc, tag_h2 doc, tag_h3 doc,
   tag_h4 doc, tag_h5 doc, tag_h6 doc, tag_header doc, tag_footer doc, tag_address doc, tag_p doc, tag_hr doc,
   tag_pre doc, tag_blockquote doc, tag_ol doc, tag_ul doc, tag_li doc, tag_dl doc, tag_dt doc, tag_dd doc,
   tag_figure doc, tag_figcaption doc, tag_main doc, tag_div doc, tag_a doc, tag_em doc, tag_strong doc,
   tag_small doc, tag_s doc, tag_cite doc, tag_q doc, tag_dfn doc, tag_abbr doc, tag_ruby doc, tag_rb doc,
   tag_rt doc, tag_rp doc, tag_time doc, tag_code doc, tag_var doc, tag_samp doc, tag_kbd doc, tag_sub doc,
   tag_sup doc, tag_i doc, tag_b doc, tag_u doc, tag_mark doc, tag_bdi doc, tag_bdo doc, tag_span doc, tag_br doc,
   tag_wbr doc, tag_ins doc, tag_del doc, tag_picture doc, tag_img doc, tag_iframe doc, tag_embed doc,
   tag_object doc, tag_param doc, tag_video doc, tag_audio doc, tag_source doc, tag_track doc, tag_map doc,
   tag_area doc, tag_table doc, tag_caption doc, tag_colgroup doc, tag_col doc, tag_tbody doc, tag_thead doc,
   tag_tfoot doc, tag_tr doc, tag_td doc, tag_th doc, tag_form doc, tag_label doc, tag_input doc, tag_button doc,
   tag_select doc, tag_datalist doc, tag_optgroup doc, tag_option doc, tag_textarea doc, tag_output doc,
   tag_progress doc, tag_meter doc, tag_fieldset doc, tag_legend doc, tag_details doc, tag_summary doc,
   tag_dialog doc, tag_script doc, tag_noscript doc, tag_template doc, tag_canvas doc, tag_slot doc, tag_data doc,
   tag_hgroup doc, tag_menu doc]

/-- The value sets, web_custom_data.rs 4951-6220. -/
def valueSets (doc : Nat → Str) : List ValueSet :=
  [set_b doc, set_u doc, set_o doc, set_y doc, set_w doc, set_d doc, set_m doc, set_fm doc, set_s doc, set_t doc,
   set_im doc, set_bt doc, set_lt doc, set_mt doc, set_mit doc, set_et doc, set_tk doc, set_pl doc, set_sh doc,
   set_xo doc, set_target doc, set_sb doc, set_tristate doc, set_inputautocomplete doc, set_autocomplete doc,
   set_current doc, set_dropeffect doc, set_invalid doc, set_live doc, set_orientation doc, set_relevant doc,
   set_sort doc, set_roles doc, set_metanames doc, set_haspopup doc, set_decoding doc, set_loading doc,
   set_referrerpolicy doc]

end Html.Builtin

namespace Html

/-- `HTML_DATA_INSTANCE`, web_custom_data.rs 5-7. -/
def builtinData (doc : Nat → Str) : HTMLData :=
  ⟨some (Builtin.tags doc), some (Builtin.globals doc), some (Builtin.valueSets doc)⟩

end Html
