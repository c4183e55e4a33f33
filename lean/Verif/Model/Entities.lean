import Verif.Model.LanguageFacts

/-!
# Character references

`html_entities::ENTITIES` (`/repo/src/parser/html_entities.rs`).  The entries that are commented out there are
left out.

Made by `tools/gen_data.py`.
-/

namespace Html.Builtin

/-- html_entities.rs 9-114. -/
def refs0 : HMap Str :=
  [(b!"Aacute;", [195, 129]), (b!"Aacute", [195, 129]), (b!"aacute;", [195, 161]), (b!"aacute", [195, 161]),
   (b!"Abreve;", [196, 130]), (b!"abreve;", [196, 131]), (b!"ac;", [226, 136, 190]), (b!"acd;", [226, 136, 191]),
   (b!"acE;", [226, 136, 190, 204, 179]), (b!"Acirc;", [195, 130]), (b!"Acirc", [195, 130]),
   (b!"acirc;", [195, 162]), (b!"acirc", [195, 162]), (b!"acute;", [194, 180]), (b!"acute", [194, 180]),
   (b!"Acy;", [208, 144]), (b!"acy;", [208, 176]), (b!"AElig;", [195, 134]), (b!"AElig", [195, 134]),
   (b!"aelig;", [195, 166]), (b!"aelig", [195, 166]), (b!"af;", [226, 129, 161]), (b!"Agrave;", [195, 128]),
   (b!"Agrave", [195, 128]), (b!"agrave;", [195, 160]), (b!"agrave", [195, 160]), (b!"alefsym;", [226, 132, 181]),
   (b!"aleph;", [226, 132, 181]), (b!"Alpha;", [206, 145]), (b!"alpha;", [206, 177]), (b!"Amacr;", [196, 128]),
   (b!"amacr;", [196, 129]), (b!"amalg;", [226, 168, 191]), (b!"AMP;", [38]), (b!"AMP", [38]), (b!"amp;", [38]),
   (b!"amp", [38]), (b!"And;", [226, 169, 147]), (b!"and;", [226, 136, 167]), (b!"andand;", [226, 169, 149]),
   (b!"andd;", [226, 169, 156]), (b!"andslope;", [226, 169, 152]), (b!"andv;", [226, 169, 154]),
   (b!"ang;", [226, 136, 160]), (b!"ange;", [226, 166, 164]), (b!"angle;", [226, 136, 160]),
   (b!"angmsd;", [226, 136, 161]), (b!"angmsdaa;", [226, 166, 168]), (b!"angmsdab;", [226, 166, 169]),
   (b!"angmsdac;", [226, 166, 170]), (b!"angmsdad;", [226, 166, 171]), (b!"angmsdae;", [226, 166, 172]),
   (b!"angmsdaf;", [226, 166, 173]), (b!"angmsdag;", [226, 166, 174]), (b!"angmsdah;", [226, 166, 175]),
   (b!"angrt;", [226, 136, 159]), (b!"angrtvb;", [226, 138, 190]), (b!"angrtvbd;", [226, 166, 157]),
   (b!"angsph;", [226, 136, 162]), (b!"angst;", [195, 133]), (b!"angzarr;", [226, 141, 188]),
   (b!"Aogon;", [196, 132]), (b!"aogon;", [196, 133]), (b!"ap;", [226, 137, 136]), (b!"apacir;", [226, 169, 175]),
   (b!"apE;", [226, 169, 176]), (b!"ape;", [226, 137, 138]), (b!"apid;", [226, 137, 139]), (b!"apos;", [39]),
   (b!"ApplyFunction;", [226, 129, 161]), (b!"approx;", [226, 137, 136]), (b!"approxeq;", [226, 137, 138]),
   (b!"Aring;", [195, 133]), (b!"Aring", [195, 133]), (b!"aring;", [195, 165]), (b!"aring", [195, 165]),
   (b!"Assign;", [226, 137, 148]), (b!"ast;", [42]), (b!"asymp;", [226, 137, 136]),
   (b!"asympeq;", [226, 137, 141]), (b!"Atilde;", [195, 131]), (b!"Atilde", [195, 131]),
   (b!"atilde;", [195, 163]), (b!"atilde", [195, 163]), (b!"Auml;", [195, 132]), (b!"Auml", [195, 132]),
   (b!"auml;", [195, 164]), (b!"auml", [195, 164]), (b!"awconint;", [226, 136, 179]),
   (b!"awint;", [226, 168, 145]), (b!"backcong;", [226, 137, 140]), (b!"backepsilon;", [207, 182]),
   (b!"backprime;", [226, 128, 181]), (b!"backsim;", [226, 136, 189]), (b!"backsimeq;", [226, 139, 141]),
   (b!"Backslash;", [226, 136, 150]), (b!"Barv;", [226, 171, 167]), (b!"barvee;", [226, 138, 189]),
   (b!"Barwed;", [226, 140, 134]), (b!"barwed;", [226, 140, 133])]

/-- html_entities.rs 115-218. -/
def refs1 : HMap Str :=
  [(b!"barwedge;", [226, 140, 133]), (b!"bbrk;", [226, 142, 181]), (b!"bbrktbrk;", [226, 142, 182]),
   (b!"bcong;", [226, 137, 140]), (b!"Bcy;", [208, 145]), (b!"bcy;", [208, 177]), (b!"bdquo;", [226, 128, 158]),
   (b!"becaus;", [226, 136, 181]), (b!"Because;", [226, 136, 181]), (b!"because;", [226, 136, 181]),
   (b!"bemptyv;", [226, 166, 176]), (b!"bepsi;", [207, 182]), (b!"bernou;", [226, 132, 172]),
   (b!"Bernoullis;", [226, 132, 172]), (b!"Beta;", [206, 146]), (b!"beta;", [206, 178]),
   (b!"beth;", [226, 132, 182]), (b!"between;", [226, 137, 172]), (b!"bigcap;", [226, 139, 130]),
   (b!"bigcirc;", [226, 151, 175]), (b!"bigcup;", [226, 139, 131]), (b!"bigodot;", [226, 168, 128]),
   (b!"bigoplus;", [226, 168, 129]), (b!"bigotimes;", [226, 168, 130]), (b!"bigsqcup;", [226, 168, 134]),
   (b!"bigstar;", [226, 152, 133]), (b!"bigtriangledown;", [226, 150, 189]),
   (b!"bigtriangleup;", [226, 150, 179]), (b!"biguplus;", [226, 168, 132]), (b!"bigvee;", [226, 139, 129]),
   (b!"bigwedge;", [226, 139, 128]), (b!"bkarow;", [226, 164, 141]), (b!"blacklozenge;", [226, 167, 171]),
   (b!"blacksquare;", [226, 150, 170]), (b!"blacktriangle;", [226, 150, 180]),
   (b!"blacktriangledown;", [226, 150, 190]), (b!"blacktriangleleft;", [226, 151, 130]),
   (b!"blacktriangleright;", [226, 150, 184]), (b!"blank;", [226, 144, 163]), (b!"blk12;", [226, 150, 146]),
   (b!"blk14;", [226, 150, 145]), (b!"blk34;", [226, 150, 147]), (b!"block;", [226, 150, 136]),
   (b!"bne;", [61, 226, 131, 165]), (b!"bnequiv;", [226, 137, 161, 226, 131, 165]), (b!"bNot;", [226, 171, 173]),
   (b!"bnot;", [226, 140, 144]), (b!"bot;", [226, 138, 165]), (b!"bottom;", [226, 138, 165]),
   (b!"bowtie;", [226, 139, 136]), (b!"boxbox;", [226, 167, 137]), (b!"boxDL;", [226, 149, 151]),
   (b!"boxDl;", [226, 149, 150]), (b!"boxdL;", [226, 149, 149]), (b!"boxdl;", [226, 148, 144]),
   (b!"boxDR;", [226, 149, 148]), (b!"boxDr;", [226, 149, 147]), (b!"boxdR;", [226, 149, 146]),
   (b!"boxdr;", [226, 148, 140]), (b!"boxH;", [226, 149, 144]), (b!"boxh;", [226, 148, 128]),
   (b!"boxHD;", [226, 149, 166]), (b!"boxHd;", [226, 149, 164]), (b!"boxhD;", [226, 149, 165]),
   (b!"boxhd;", [226, 148, 172]), (b!"boxHU;", [226, 149, 169]), (b!"boxHu;", [226, 149, 167]),
   (b!"boxhU;", [226, 149, 168]), (b!"boxhu;", [226, 148, 180]), (b!"boxminus;", [226, 138, 159]),
   (b!"boxplus;", [226, 138, 158]), (b!"boxtimes;", [226, 138, 160]), (b!"boxUL;", [226, 149, 157]),
   (b!"boxUl;", [226, 149, 156]), (b!"boxuL;", [226, 149, 155]), (b!"boxul;", [226, 148, 152]),
   (b!"boxUR;", [226, 149, 154]), (b!"boxUr;", [226, 149, 153]), (b!"boxuR;", [226, 149, 152]),
   (b!"boxur;", [226, 148, 148]), (b!"boxV;", [226, 149, 145]), (b!"boxv;", [226, 148, 130]),
   (b!"boxVH;", [226, 149, 172]), (b!"boxVh;", [226, 149, 171]), (b!"boxvH;", [226, 149, 170]),
   (b!"boxvh;", [226, 148, 188]), (b!"boxVL;", [226, 149, 163]), (b!"boxVl;", [226, 149, 162]),
   (b!"boxvL;", [226, 149, 161]), (b!"boxvl;", [226, 148, 164]), (b!"boxVR;", [226, 149, 160]),
   (b!"boxVr;", [226, 149, 159]), (b!"boxvR;", [226, 149, 158]), (b!"boxvr;", [226, 148, 156]),
   (b!"bprime;", [226, 128, 181]), (b!"Breve;", [203, 152]), (b!"breve;", [203, 152]), (b!"brvbar;", [194, 166]),
   (b!"brvbar", [194, 166]), (b!"Bscr;", [226, 132, 172])]

/-- html_entities.rs 220-321. -/
def refs2 : HMap Str :=
  [(b!"bsemi;", [226, 129, 143]), (b!"bsim;", [226, 136, 189]), (b!"bsime;", [226, 139, 141]), (b!"bsol;", [92]),
   (b!"bsolb;", [226, 167, 133]), (b!"bsolhsub;", [226, 159, 136]), (b!"bull;", [226, 128, 162]),
   (b!"bullet;", [226, 128, 162]), (b!"bump;", [226, 137, 142]), (b!"bumpE;", [226, 170, 174]),
   (b!"bumpe;", [226, 137, 143]), (b!"Bumpeq;", [226, 137, 142]), (b!"bumpeq;", [226, 137, 143]),
   (b!"Cacute;", [196, 134]), (b!"cacute;", [196, 135]), (b!"Cap;", [226, 139, 146]), (b!"cap;", [226, 136, 169]),
   (b!"capand;", [226, 169, 132]), (b!"capbrcup;", [226, 169, 137]), (b!"capcap;", [226, 169, 139]),
   (b!"capcup;", [226, 169, 135]), (b!"capdot;", [226, 169, 128]), (b!"CapitalDifferentialD;", [226, 133, 133]),
   (b!"caps;", [226, 136, 169, 239, 184, 128]), (b!"caret;", [226, 129, 129]), (b!"caron;", [203, 135]),
   (b!"Cayleys;", [226, 132, 173]), (b!"ccaps;", [226, 169, 141]), (b!"Ccaron;", [196, 140]),
   (b!"ccaron;", [196, 141]), (b!"Ccedil;", [195, 135]), (b!"Ccedil", [195, 135]), (b!"ccedil;", [195, 167]),
   (b!"ccedil", [195, 167]), (b!"Ccirc;", [196, 136]), (b!"ccirc;", [196, 137]), (b!"Cconint;", [226, 136, 176]),
   (b!"ccups;", [226, 169, 140]), (b!"ccupssm;", [226, 169, 144]), (b!"Cdot;", [196, 138]),
   (b!"cdot;", [196, 139]), (b!"cedil;", [194, 184]), (b!"cedil", [194, 184]), (b!"Cedilla;", [194, 184]),
   (b!"cemptyv;", [226, 166, 178]), (b!"cent;", [194, 162]), (b!"cent", [194, 162]), (b!"CenterDot;", [194, 183]),
   (b!"centerdot;", [194, 183]), (b!"Cfr;", [226, 132, 173]), (b!"CHcy;", [208, 167]), (b!"chcy;", [209, 135]),
   (b!"check;", [226, 156, 147]), (b!"checkmark;", [226, 156, 147]), (b!"Chi;", [206, 167]),
   (b!"chi;", [207, 135]), (b!"cir;", [226, 151, 139]), (b!"circ;", [203, 134]), (b!"circeq;", [226, 137, 151]),
   (b!"circlearrowleft;", [226, 134, 186]), (b!"circlearrowright;", [226, 134, 187]),
   (b!"circledast;", [226, 138, 155]), (b!"circledcirc;", [226, 138, 154]), (b!"circleddash;", [226, 138, 157]),
   (b!"CircleDot;", [226, 138, 153]), (b!"circledR;", [194, 174]), (b!"circledS;", [226, 147, 136]),
   (b!"CircleMinus;", [226, 138, 150]), (b!"CirclePlus;", [226, 138, 149]), (b!"CircleTimes;", [226, 138, 151]),
   (b!"cirE;", [226, 167, 131]), (b!"cire;", [226, 137, 151]), (b!"cirfnint;", [226, 168, 144]),
   (b!"cirmid;", [226, 171, 175]), (b!"cirscir;", [226, 167, 130]),
   (b!"ClockwiseContourIntegral;", [226, 136, 178]), (b!"CloseCurlyDoubleQuote;", [226, 128, 157]),
   (b!"CloseCurlyQuote;", [226, 128, 153]), (b!"clubs;", [226, 153, 163]), (b!"clubsuit;", [226, 153, 163]),
   (b!"Colon;", [226, 136, 183]), (b!"colon;", [58]), (b!"Colone;", [226, 169, 180]),
   (b!"colone;", [226, 137, 148]), (b!"coloneq;", [226, 137, 148]), (b!"comma;", [44]), (b!"commat;", [64]),
   (b!"comp;", [226, 136, 129]), (b!"compfn;", [226, 136, 152]), (b!"complement;", [226, 136, 129]),
   (b!"complexes;", [226, 132, 130]), (b!"cong;", [226, 137, 133]), (b!"congdot;", [226, 169, 173]),
   (b!"Congruent;", [226, 137, 161]), (b!"Conint;", [226, 136, 175]), (b!"conint;", [226, 136, 174]),
   (b!"ContourIntegral;", [226, 136, 174]), (b!"Copf;", [226, 132, 130]), (b!"coprod;", [226, 136, 144]),
   (b!"Coproduct;", [226, 136, 144])]

/-- html_entities.rs 322-428. -/
def refs3 : HMap Str :=
  [(b!"COPY;", [194, 169]), (b!"COPY", [194, 169]), (b!"copy;", [194, 169]), (b!"copy", [194, 169]),
   (b!"copysr;", [226, 132, 151]), (b!"CounterClockwiseContourIntegral;", [226, 136, 179]),
   (b!"crarr;", [226, 134, 181]), (b!"Cross;", [226, 168, 175]), (b!"cross;", [226, 156, 151]),
   (b!"csub;", [226, 171, 143]), (b!"csube;", [226, 171, 145]), (b!"csup;", [226, 171, 144]),
   (b!"csupe;", [226, 171, 146]), (b!"ctdot;", [226, 139, 175]), (b!"cudarrl;", [226, 164, 184]),
   (b!"cudarrr;", [226, 164, 181]), (b!"cuepr;", [226, 139, 158]), (b!"cuesc;", [226, 139, 159]),
   (b!"cularr;", [226, 134, 182]), (b!"cularrp;", [226, 164, 189]), (b!"Cup;", [226, 139, 147]),
   (b!"cup;", [226, 136, 170]), (b!"cupbrcap;", [226, 169, 136]), (b!"CupCap;", [226, 137, 141]),
   (b!"cupcap;", [226, 169, 134]), (b!"cupcup;", [226, 169, 138]), (b!"cupdot;", [226, 138, 141]),
   (b!"cupor;", [226, 169, 133]), (b!"curarr;", [226, 134, 183]), (b!"curarrm;", [226, 164, 188]),
   (b!"curlyeqprec;", [226, 139, 158]), (b!"curlyeqsucc;", [226, 139, 159]), (b!"curlyvee;", [226, 139, 142]),
   (b!"curlywedge;", [226, 139, 143]), (b!"curren;", [194, 164]), (b!"curren", [194, 164]),
   (b!"curvearrowleft;", [226, 134, 182]), (b!"curvearrowright;", [226, 134, 183]), (b!"cuvee;", [226, 139, 142]),
   (b!"cuwed;", [226, 139, 143]), (b!"cwconint;", [226, 136, 178]), (b!"cwint;", [226, 136, 177]),
   (b!"cylcty;", [226, 140, 173]), (b!"Dagger;", [226, 128, 161]), (b!"dagger;", [226, 128, 160]),
   (b!"daleth;", [226, 132, 184]), (b!"Darr;", [226, 134, 161]), (b!"dArr;", [226, 135, 147]),
   (b!"darr;", [226, 134, 147]), (b!"dash;", [226, 128, 144]), (b!"Dashv;", [226, 171, 164]),
   (b!"dashv;", [226, 138, 163]), (b!"dbkarow;", [226, 164, 143]), (b!"dblac;", [203, 157]),
   (b!"Dcaron;", [196, 142]), (b!"dcaron;", [196, 143]), (b!"Dcy;", [208, 148]), (b!"dcy;", [208, 180]),
   (b!"DD;", [226, 133, 133]), (b!"dd;", [226, 133, 134]), (b!"ddagger;", [226, 128, 161]),
   (b!"ddarr;", [226, 135, 138]), (b!"DDotrahd;", [226, 164, 145]), (b!"ddotseq;", [226, 169, 183]),
   (b!"deg;", [194, 176]), (b!"deg", [194, 176]), (b!"Del;", [226, 136, 135]), (b!"Delta;", [206, 148]),
   (b!"delta;", [206, 180]), (b!"demptyv;", [226, 166, 177]), (b!"dfisht;", [226, 165, 191]),
   (b!"dHar;", [226, 165, 165]), (b!"dharl;", [226, 135, 131]), (b!"dharr;", [226, 135, 130]),
   (b!"DiacriticalAcute;", [194, 180]), (b!"DiacriticalDot;", [203, 153]),
   (b!"DiacriticalDoubleAcute;", [203, 157]), (b!"DiacriticalGrave;", [96]), (b!"DiacriticalTilde;", [203, 156]),
   (b!"diam;", [226, 139, 132]), (b!"Diamond;", [226, 139, 132]), (b!"diamond;", [226, 139, 132]),
   (b!"diamondsuit;", [226, 153, 166]), (b!"diams;", [226, 153, 166]), (b!"die;", [194, 168]),
   (b!"DifferentialD;", [226, 133, 134]), (b!"digamma;", [207, 157]), (b!"disin;", [226, 139, 178]),
   (b!"div;", [195, 183]), (b!"divide;", [195, 183]), (b!"divide", [195, 183]),
   (b!"divideontimes;", [226, 139, 135]), (b!"divonx;", [226, 139, 135]), (b!"DJcy;", [208, 130]),
   (b!"djcy;", [209, 146]), (b!"dlcorn;", [226, 140, 158]), (b!"dlcrop;", [226, 140, 141]), (b!"dollar;", [36]),
   (b!"Dot;", [194, 168]), (b!"dot;", [203, 153])]

/-- html_entities.rs 429-532. -/
def refs4 : HMap Str :=
  [(b!"DotDot;", [226, 131, 156]), (b!"doteq;", [226, 137, 144]), (b!"doteqdot;", [226, 137, 145]),
   (b!"DotEqual;", [226, 137, 144]), (b!"dotminus;", [226, 136, 184]), (b!"dotplus;", [226, 136, 148]),
   (b!"dotsquare;", [226, 138, 161]), (b!"doublebarwedge;", [226, 140, 134]),
   (b!"DoubleContourIntegral;", [226, 136, 175]), (b!"DoubleDot;", [194, 168]),
   (b!"DoubleDownArrow;", [226, 135, 147]), (b!"DoubleLeftArrow;", [226, 135, 144]),
   (b!"DoubleLeftRightArrow;", [226, 135, 148]), (b!"DoubleLeftTee;", [226, 171, 164]),
   (b!"DoubleLongLeftArrow;", [226, 159, 184]), (b!"DoubleLongLeftRightArrow;", [226, 159, 186]),
   (b!"DoubleLongRightArrow;", [226, 159, 185]), (b!"DoubleRightArrow;", [226, 135, 146]),
   (b!"DoubleRightTee;", [226, 138, 168]), (b!"DoubleUpArrow;", [226, 135, 145]),
   (b!"DoubleUpDownArrow;", [226, 135, 149]), (b!"DoubleVerticalBar;", [226, 136, 165]),
   (b!"DownArrow;", [226, 134, 147]), (b!"Downarrow;", [226, 135, 147]), (b!"downarrow;", [226, 134, 147]),
   (b!"DownArrowBar;", [226, 164, 147]), (b!"DownArrowUpArrow;", [226, 135, 181]), (b!"DownBreve;", [204, 145]),
   (b!"downdownarrows;", [226, 135, 138]), (b!"downharpoonleft;", [226, 135, 131]),
   (b!"downharpoonright;", [226, 135, 130]), (b!"DownLeftRightVector;", [226, 165, 144]),
   (b!"DownLeftTeeVector;", [226, 165, 158]), (b!"DownLeftVector;", [226, 134, 189]),
   (b!"DownLeftVectorBar;", [226, 165, 150]), (b!"DownRightTeeVector;", [226, 165, 159]),
   (b!"DownRightVector;", [226, 135, 129]), (b!"DownRightVectorBar;", [226, 165, 151]),
   (b!"DownTee;", [226, 138, 164]), (b!"DownTeeArrow;", [226, 134, 167]), (b!"drbkarow;", [226, 164, 144]),
   (b!"drcorn;", [226, 140, 159]), (b!"drcrop;", [226, 140, 140]), (b!"DScy;", [208, 133]),
   (b!"dscy;", [209, 149]), (b!"dsol;", [226, 167, 182]), (b!"Dstrok;", [196, 144]), (b!"dstrok;", [196, 145]),
   (b!"dtdot;", [226, 139, 177]), (b!"dtri;", [226, 150, 191]), (b!"dtrif;", [226, 150, 190]),
   (b!"duarr;", [226, 135, 181]), (b!"duhar;", [226, 165, 175]), (b!"dwangle;", [226, 166, 166]),
   (b!"DZcy;", [208, 143]), (b!"dzcy;", [209, 159]), (b!"dzigrarr;", [226, 159, 191]), (b!"Eacute;", [195, 137]),
   (b!"Eacute", [195, 137]), (b!"eacute;", [195, 169]), (b!"eacute", [195, 169]), (b!"easter;", [226, 169, 174]),
   (b!"Ecaron;", [196, 154]), (b!"ecaron;", [196, 155]), (b!"ecir;", [226, 137, 150]), (b!"Ecirc;", [195, 138]),
   (b!"Ecirc", [195, 138]), (b!"ecirc;", [195, 170]), (b!"ecirc", [195, 170]), (b!"ecolon;", [226, 137, 149]),
   (b!"Ecy;", [208, 173]), (b!"ecy;", [209, 141]), (b!"eDDot;", [226, 169, 183]), (b!"Edot;", [196, 150]),
   (b!"eDot;", [226, 137, 145]), (b!"edot;", [196, 151]), (b!"ee;", [226, 133, 135]),
   (b!"efDot;", [226, 137, 146]), (b!"eg;", [226, 170, 154]), (b!"Egrave;", [195, 136]), (b!"Egrave", [195, 136]),
   (b!"egrave;", [195, 168]), (b!"egrave", [195, 168]), (b!"egs;", [226, 170, 150]),
   (b!"egsdot;", [226, 170, 152]), (b!"el;", [226, 170, 153]), (b!"Element;", [226, 136, 136]),
   (b!"elinters;", [226, 143, 167]), (b!"ell;", [226, 132, 147]), (b!"els;", [226, 170, 149]),
   (b!"elsdot;", [226, 170, 151]), (b!"Emacr;", [196, 146]), (b!"emacr;", [196, 147]),
   (b!"empty;", [226, 136, 133]), (b!"emptyset;", [226, 136, 133]), (b!"EmptySmallSquare;", [226, 151, 187]),
   (b!"emptyv;", [226, 136, 133]), (b!"EmptyVerySmallSquare;", [226, 150, 171]), (b!"emsp;", [226, 128, 131]),
   (b!"emsp13;", [226, 128, 132])]

/-- html_entities.rs 533-639. -/
def refs5 : HMap Str :=
  [(b!"emsp14;", [226, 128, 133]), (b!"ENG;", [197, 138]), (b!"eng;", [197, 139]), (b!"ensp;", [226, 128, 130]),
   (b!"Eogon;", [196, 152]), (b!"eogon;", [196, 153]), (b!"epar;", [226, 139, 149]),
   (b!"eparsl;", [226, 167, 163]), (b!"eplus;", [226, 169, 177]), (b!"epsi;", [206, 181]),
   (b!"Epsilon;", [206, 149]), (b!"epsilon;", [206, 181]), (b!"epsiv;", [207, 181]),
   (b!"eqcirc;", [226, 137, 150]), (b!"eqcolon;", [226, 137, 149]), (b!"eqsim;", [226, 137, 130]),
   (b!"eqslantgtr;", [226, 170, 150]), (b!"eqslantless;", [226, 170, 149]), (b!"Equal;", [226, 169, 181]),
   (b!"equals;", [61]), (b!"EqualTilde;", [226, 137, 130]), (b!"equest;", [226, 137, 159]),
   (b!"Equilibrium;", [226, 135, 140]), (b!"equiv;", [226, 137, 161]), (b!"equivDD;", [226, 169, 184]),
   (b!"eqvparsl;", [226, 167, 165]), (b!"erarr;", [226, 165, 177]), (b!"erDot;", [226, 137, 147]),
   (b!"Escr;", [226, 132, 176]), (b!"escr;", [226, 132, 175]), (b!"esdot;", [226, 137, 144]),
   (b!"Esim;", [226, 169, 179]), (b!"esim;", [226, 137, 130]), (b!"Eta;", [206, 151]), (b!"eta;", [206, 183]),
   (b!"ETH;", [195, 144]), (b!"ETH", [195, 144]), (b!"eth;", [195, 176]), (b!"eth", [195, 176]),
   (b!"Euml;", [195, 139]), (b!"Euml", [195, 139]), (b!"euml;", [195, 171]), (b!"euml", [195, 171]),
   (b!"euro;", [226, 130, 172]), (b!"excl;", [33]), (b!"exist;", [226, 136, 131]), (b!"Exists;", [226, 136, 131]),
   (b!"expectation;", [226, 132, 176]), (b!"ExponentialE;", [226, 133, 135]),
   (b!"exponentiale;", [226, 133, 135]), (b!"fallingdotseq;", [226, 137, 146]), (b!"Fcy;", [208, 164]),
   (b!"fcy;", [209, 132]), (b!"female;", [226, 153, 128]), (b!"ffilig;", [239, 172, 131]),
   (b!"fflig;", [239, 172, 128]), (b!"ffllig;", [239, 172, 132]), (b!"filig;", [239, 172, 129]),
   (b!"FilledSmallSquare;", [226, 151, 188]), (b!"FilledVerySmallSquare;", [226, 150, 170]),
   (b!"fjlig;", [102, 106]), (b!"flat;", [226, 153, 173]), (b!"fllig;", [239, 172, 130]),
   (b!"fltns;", [226, 150, 177]), (b!"fnof;", [198, 146]), (b!"ForAll;", [226, 136, 128]),
   (b!"forall;", [226, 136, 128]), (b!"fork;", [226, 139, 148]), (b!"forkv;", [226, 171, 153]),
   (b!"Fouriertrf;", [226, 132, 177]), (b!"fpartint;", [226, 168, 141]), (b!"frac12;", [194, 189]),
   (b!"frac12", [194, 189]), (b!"frac13;", [226, 133, 147]), (b!"frac14;", [194, 188]), (b!"frac14", [194, 188]),
   (b!"frac15;", [226, 133, 149]), (b!"frac16;", [226, 133, 153]), (b!"frac18;", [226, 133, 155]),
   (b!"frac23;", [226, 133, 148]), (b!"frac25;", [226, 133, 150]), (b!"frac34;", [194, 190]),
   (b!"frac34", [194, 190]), (b!"frac35;", [226, 133, 151]), (b!"frac38;", [226, 133, 156]),
   (b!"frac45;", [226, 133, 152]), (b!"frac56;", [226, 133, 154]), (b!"frac58;", [226, 133, 157]),
   (b!"frac78;", [226, 133, 158]), (b!"frasl;", [226, 129, 132]), (b!"frown;", [226, 140, 162]),
   (b!"Fscr;", [226, 132, 177]), (b!"gacute;", [199, 181]), (b!"Gamma;", [206, 147]), (b!"gamma;", [206, 179]),
   (b!"Gammad;", [207, 156]), (b!"gammad;", [207, 157]), (b!"gap;", [226, 170, 134]), (b!"Gbreve;", [196, 158]),
   (b!"gbreve;", [196, 159])]

/-- html_entities.rs 640-747. -/
def refs6 : HMap Str :=
  [(b!"Gcedil;", [196, 162]), (b!"Gcirc;", [196, 156]), (b!"gcirc;", [196, 157]), (b!"Gcy;", [208, 147]),
   (b!"gcy;", [208, 179]), (b!"Gdot;", [196, 160]), (b!"gdot;", [196, 161]), (b!"gE;", [226, 137, 167]),
   (b!"ge;", [226, 137, 165]), (b!"gEl;", [226, 170, 140]), (b!"gel;", [226, 139, 155]),
   (b!"geq;", [226, 137, 165]), (b!"geqq;", [226, 137, 167]), (b!"geqslant;", [226, 169, 190]),
   (b!"ges;", [226, 169, 190]), (b!"gescc;", [226, 170, 169]), (b!"gesdot;", [226, 170, 128]),
   (b!"gesdoto;", [226, 170, 130]), (b!"gesdotol;", [226, 170, 132]), (b!"gesl;", [226, 139, 155, 239, 184, 128]),
   (b!"gesles;", [226, 170, 148]), (b!"Gg;", [226, 139, 153]), (b!"gg;", [226, 137, 171]),
   (b!"ggg;", [226, 139, 153]), (b!"gimel;", [226, 132, 183]), (b!"GJcy;", [208, 131]), (b!"gjcy;", [209, 147]),
   (b!"gl;", [226, 137, 183]), (b!"gla;", [226, 170, 165]), (b!"glE;", [226, 170, 146]),
   (b!"glj;", [226, 170, 164]), (b!"gnap;", [226, 170, 138]), (b!"gnapprox;", [226, 170, 138]),
   (b!"gnE;", [226, 137, 169]), (b!"gne;", [226, 170, 136]), (b!"gneq;", [226, 170, 136]),
   (b!"gneqq;", [226, 137, 169]), (b!"gnsim;", [226, 139, 167]), (b!"grave;", [96]),
   (b!"GreaterEqual;", [226, 137, 165]), (b!"GreaterEqualLess;", [226, 139, 155]),
   (b!"GreaterFullEqual;", [226, 137, 167]), (b!"GreaterGreater;", [226, 170, 162]),
   (b!"GreaterLess;", [226, 137, 183]), (b!"GreaterSlantEqual;", [226, 169, 190]),
   (b!"GreaterTilde;", [226, 137, 179]), (b!"gscr;", [226, 132, 138]), (b!"gsim;", [226, 137, 179]),
   (b!"gsime;", [226, 170, 142]), (b!"gsiml;", [226, 170, 144]), (b!"GT;", [62]), (b!"GT", [62]),
   (b!"Gt;", [226, 137, 171]), (b!"gt;", [62]), (b!"gt", [62]), (b!"gtcc;", [226, 170, 167]),
   (b!"gtcir;", [226, 169, 186]), (b!"gtdot;", [226, 139, 151]), (b!"gtlPar;", [226, 166, 149]),
   (b!"gtquest;", [226, 169, 188]), (b!"gtrapprox;", [226, 170, 134]), (b!"gtrarr;", [226, 165, 184]),
   (b!"gtrdot;", [226, 139, 151]), (b!"gtreqless;", [226, 139, 155]), (b!"gtreqqless;", [226, 170, 140]),
   (b!"gtrless;", [226, 137, 183]), (b!"gtrsim;", [226, 137, 179]),
   (b!"gvertneqq;", [226, 137, 169, 239, 184, 128]), (b!"gvnE;", [226, 137, 169, 239, 184, 128]),
   (b!"Hacek;", [203, 135]), (b!"hairsp;", [226, 128, 138]), (b!"half;", [194, 189]),
   (b!"hamilt;", [226, 132, 139]), (b!"HARDcy;", [208, 170]), (b!"hardcy;", [209, 138]),
   (b!"hArr;", [226, 135, 148]), (b!"harr;", [226, 134, 148]), (b!"harrcir;", [226, 165, 136]),
   (b!"harrw;", [226, 134, 173]), (b!"Hat;", [94]), (b!"hbar;", [226, 132, 143]), (b!"Hcirc;", [196, 164]),
   (b!"hcirc;", [196, 165]), (b!"hearts;", [226, 153, 165]), (b!"heartsuit;", [226, 153, 165]),
   (b!"hellip;", [226, 128, 166]), (b!"hercon;", [226, 138, 185]), (b!"Hfr;", [226, 132, 140]),
   (b!"HilbertSpace;", [226, 132, 139]), (b!"hksearow;", [226, 164, 165]), (b!"hkswarow;", [226, 164, 166]),
   (b!"hoarr;", [226, 135, 191]), (b!"homtht;", [226, 136, 187]), (b!"hookleftarrow;", [226, 134, 169]),
   (b!"hookrightarrow;", [226, 134, 170]), (b!"Hopf;", [226, 132, 141]), (b!"horbar;", [226, 128, 149]),
   (b!"HorizontalLine;", [226, 148, 128]), (b!"Hscr;", [226, 132, 139]), (b!"hslash;", [226, 132, 143])]

/-- html_entities.rs 748-857. -/
def refs7 : HMap Str :=
  [(b!"Hstrok;", [196, 166]), (b!"hstrok;", [196, 167]), (b!"HumpDownHump;", [226, 137, 142]),
   (b!"HumpEqual;", [226, 137, 143]), (b!"hybull;", [226, 129, 131]), (b!"hyphen;", [226, 128, 144]),
   (b!"Iacute;", [195, 141]), (b!"Iacute", [195, 141]), (b!"iacute;", [195, 173]), (b!"iacute", [195, 173]),
   (b!"ic;", [226, 129, 163]), (b!"Icirc;", [195, 142]), (b!"Icirc", [195, 142]), (b!"icirc;", [195, 174]),
   (b!"icirc", [195, 174]), (b!"Icy;", [208, 152]), (b!"icy;", [208, 184]), (b!"Idot;", [196, 176]),
   (b!"IEcy;", [208, 149]), (b!"iecy;", [208, 181]), (b!"iexcl;", [194, 161]), (b!"iexcl", [194, 161]),
   (b!"iff;", [226, 135, 148]), (b!"Ifr;", [226, 132, 145]), (b!"Igrave;", [195, 140]), (b!"Igrave", [195, 140]),
   (b!"igrave;", [195, 172]), (b!"igrave", [195, 172]), (b!"ii;", [226, 133, 136]),
   (b!"iiiint;", [226, 168, 140]), (b!"iiint;", [226, 136, 173]), (b!"iinfin;", [226, 167, 156]),
   (b!"iiota;", [226, 132, 169]), (b!"IJlig;", [196, 178]), (b!"ijlig;", [196, 179]), (b!"Im;", [226, 132, 145]),
   (b!"Imacr;", [196, 170]), (b!"imacr;", [196, 171]), (b!"image;", [226, 132, 145]),
   (b!"ImaginaryI;", [226, 133, 136]), (b!"imagline;", [226, 132, 144]), (b!"imagpart;", [226, 132, 145]),
   (b!"imath;", [196, 177]), (b!"imof;", [226, 138, 183]), (b!"imped;", [198, 181]),
   (b!"Implies;", [226, 135, 146]), (b!"in;", [226, 136, 136]), (b!"incare;", [226, 132, 133]),
   (b!"infin;", [226, 136, 158]), (b!"infintie;", [226, 167, 157]), (b!"inodot;", [196, 177]),
   (b!"Int;", [226, 136, 172]), (b!"int;", [226, 136, 171]), (b!"intcal;", [226, 138, 186]),
   (b!"integers;", [226, 132, 164]), (b!"Integral;", [226, 136, 171]), (b!"intercal;", [226, 138, 186]),
   (b!"Intersection;", [226, 139, 130]), (b!"intlarhk;", [226, 168, 151]), (b!"intprod;", [226, 168, 188]),
   (b!"InvisibleComma;", [226, 129, 163]), (b!"InvisibleTimes;", [226, 129, 162]), (b!"IOcy;", [208, 129]),
   (b!"iocy;", [209, 145]), (b!"Iogon;", [196, 174]), (b!"iogon;", [196, 175]), (b!"Iota;", [206, 153]),
   (b!"iota;", [206, 185]), (b!"iprod;", [226, 168, 188]), (b!"iquest;", [194, 191]), (b!"iquest", [194, 191]),
   (b!"Iscr;", [226, 132, 144]), (b!"isin;", [226, 136, 136]), (b!"isindot;", [226, 139, 181]),
   (b!"isinE;", [226, 139, 185]), (b!"isins;", [226, 139, 180]), (b!"isinsv;", [226, 139, 179]),
   (b!"isinv;", [226, 136, 136]), (b!"it;", [226, 129, 162]), (b!"Itilde;", [196, 168]),
   (b!"itilde;", [196, 169]), (b!"Iukcy;", [208, 134]), (b!"iukcy;", [209, 150]), (b!"Iuml;", [195, 143]),
   (b!"Iuml", [195, 143]), (b!"iuml;", [195, 175]), (b!"iuml", [195, 175]), (b!"Jcirc;", [196, 180]),
   (b!"jcirc;", [196, 181]), (b!"Jcy;", [208, 153]), (b!"jcy;", [208, 185]), (b!"jmath;", [200, 183]),
   (b!"Jsercy;", [208, 136]), (b!"jsercy;", [209, 152]), (b!"Jukcy;", [208, 132]), (b!"jukcy;", [209, 148]),
   (b!"Kappa;", [206, 154]), (b!"kappa;", [206, 186]), (b!"kappav;", [207, 176]), (b!"Kcedil;", [196, 182])]

/-- html_entities.rs 858-963. -/
def refs8 : HMap Str :=
  [(b!"kcedil;", [196, 183]), (b!"Kcy;", [208, 154]), (b!"kcy;", [208, 186]), (b!"kgreen;", [196, 184]),
   (b!"KHcy;", [208, 165]), (b!"khcy;", [209, 133]), (b!"KJcy;", [208, 140]), (b!"kjcy;", [209, 156]),
   (b!"lAarr;", [226, 135, 154]), (b!"Lacute;", [196, 185]), (b!"lacute;", [196, 186]),
   (b!"laemptyv;", [226, 166, 180]), (b!"lagran;", [226, 132, 146]), (b!"Lambda;", [206, 155]),
   (b!"lambda;", [206, 187]), (b!"Lang;", [226, 159, 170]), (b!"lang;", [226, 159, 168]),
   (b!"langd;", [226, 166, 145]), (b!"langle;", [226, 159, 168]), (b!"lap;", [226, 170, 133]),
   (b!"Laplacetrf;", [226, 132, 146]), (b!"laquo;", [194, 171]), (b!"laquo", [194, 171]),
   (b!"Larr;", [226, 134, 158]), (b!"lArr;", [226, 135, 144]), (b!"larr;", [226, 134, 144]),
   (b!"larrb;", [226, 135, 164]), (b!"larrbfs;", [226, 164, 159]), (b!"larrfs;", [226, 164, 157]),
   (b!"larrhk;", [226, 134, 169]), (b!"larrlp;", [226, 134, 171]), (b!"larrpl;", [226, 164, 185]),
   (b!"larrsim;", [226, 165, 179]), (b!"larrtl;", [226, 134, 162]), (b!"lat;", [226, 170, 171]),
   (b!"lAtail;", [226, 164, 155]), (b!"latail;", [226, 164, 153]), (b!"late;", [226, 170, 173]),
   (b!"lates;", [226, 170, 173, 239, 184, 128]), (b!"lBarr;", [226, 164, 142]), (b!"lbarr;", [226, 164, 140]),
   (b!"lbbrk;", [226, 157, 178]), (b!"lbrace;", [123]), (b!"lbrack;", [91]), (b!"lbrke;", [226, 166, 139]),
   (b!"lbrksld;", [226, 166, 143]), (b!"lbrkslu;", [226, 166, 141]), (b!"Lcaron;", [196, 189]),
   (b!"lcaron;", [196, 190]), (b!"Lcedil;", [196, 187]), (b!"lcedil;", [196, 188]), (b!"lceil;", [226, 140, 136]),
   (b!"lcub;", [123]), (b!"Lcy;", [208, 155]), (b!"lcy;", [208, 187]), (b!"ldca;", [226, 164, 182]),
   (b!"ldquo;", [226, 128, 156]), (b!"ldquor;", [226, 128, 158]), (b!"ldrdhar;", [226, 165, 167]),
   (b!"ldrushar;", [226, 165, 139]), (b!"ldsh;", [226, 134, 178]), (b!"lE;", [226, 137, 166]),
   (b!"le;", [226, 137, 164]), (b!"LeftAngleBracket;", [226, 159, 168]), (b!"LeftArrow;", [226, 134, 144]),
   (b!"Leftarrow;", [226, 135, 144]), (b!"leftarrow;", [226, 134, 144]), (b!"LeftArrowBar;", [226, 135, 164]),
   (b!"LeftArrowRightArrow;", [226, 135, 134]), (b!"leftarrowtail;", [226, 134, 162]),
   (b!"LeftCeiling;", [226, 140, 136]), (b!"LeftDoubleBracket;", [226, 159, 166]),
   (b!"LeftDownTeeVector;", [226, 165, 161]), (b!"LeftDownVector;", [226, 135, 131]),
   (b!"LeftDownVectorBar;", [226, 165, 153]), (b!"LeftFloor;", [226, 140, 138]),
   (b!"leftharpoondown;", [226, 134, 189]), (b!"leftharpoonup;", [226, 134, 188]),
   (b!"leftleftarrows;", [226, 135, 135]), (b!"LeftRightArrow;", [226, 134, 148]),
   (b!"Leftrightarrow;", [226, 135, 148]), (b!"leftrightarrow;", [226, 134, 148]),
   (b!"leftrightarrows;", [226, 135, 134]), (b!"leftrightharpoons;", [226, 135, 139]),
   (b!"leftrightsquigarrow;", [226, 134, 173]), (b!"LeftRightVector;", [226, 165, 142]),
   (b!"LeftTee;", [226, 138, 163]), (b!"LeftTeeArrow;", [226, 134, 164]), (b!"LeftTeeVector;", [226, 165, 154]),
   (b!"leftthreetimes;", [226, 139, 139]), (b!"LeftTriangle;", [226, 138, 178]),
   (b!"LeftTriangleBar;", [226, 167, 143]), (b!"LeftTriangleEqual;", [226, 138, 180]),
   (b!"LeftUpDownVector;", [226, 165, 145]), (b!"LeftUpTeeVector;", [226, 165, 160]),
   (b!"LeftUpVector;", [226, 134, 191]), (b!"LeftUpVectorBar;", [226, 165, 152]),
   (b!"LeftVector;", [226, 134, 188]), (b!"LeftVectorBar;", [226, 165, 146]), (b!"lEg;", [226, 170, 139])]

/-- html_entities.rs 964-1068. -/
def refs9 : HMap Str :=
  [(b!"leg;", [226, 139, 154]), (b!"leq;", [226, 137, 164]), (b!"leqq;", [226, 137, 166]),
   (b!"leqslant;", [226, 169, 189]), (b!"les;", [226, 169, 189]), (b!"lescc;", [226, 170, 168]),
   (b!"lesdot;", [226, 169, 191]), (b!"lesdoto;", [226, 170, 129]), (b!"lesdotor;", [226, 170, 131]),
   (b!"lesg;", [226, 139, 154, 239, 184, 128]), (b!"lesges;", [226, 170, 147]),
   (b!"lessapprox;", [226, 170, 133]), (b!"lessdot;", [226, 139, 150]), (b!"lesseqgtr;", [226, 139, 154]),
   (b!"lesseqqgtr;", [226, 170, 139]), (b!"LessEqualGreater;", [226, 139, 154]),
   (b!"LessFullEqual;", [226, 137, 166]), (b!"LessGreater;", [226, 137, 182]), (b!"lessgtr;", [226, 137, 182]),
   (b!"LessLess;", [226, 170, 161]), (b!"lesssim;", [226, 137, 178]), (b!"LessSlantEqual;", [226, 169, 189]),
   (b!"LessTilde;", [226, 137, 178]), (b!"lfisht;", [226, 165, 188]), (b!"lfloor;", [226, 140, 138]),
   (b!"lg;", [226, 137, 182]), (b!"lgE;", [226, 170, 145]), (b!"lHar;", [226, 165, 162]),
   (b!"lhard;", [226, 134, 189]), (b!"lharu;", [226, 134, 188]), (b!"lharul;", [226, 165, 170]),
   (b!"lhblk;", [226, 150, 132]), (b!"LJcy;", [208, 137]), (b!"ljcy;", [209, 153]), (b!"Ll;", [226, 139, 152]),
   (b!"ll;", [226, 137, 170]), (b!"llarr;", [226, 135, 135]), (b!"llcorner;", [226, 140, 158]),
   (b!"Lleftarrow;", [226, 135, 154]), (b!"llhard;", [226, 165, 171]), (b!"lltri;", [226, 151, 186]),
   (b!"Lmidot;", [196, 191]), (b!"lmidot;", [197, 128]), (b!"lmoust;", [226, 142, 176]),
   (b!"lmoustache;", [226, 142, 176]), (b!"lnap;", [226, 170, 137]), (b!"lnapprox;", [226, 170, 137]),
   (b!"lnE;", [226, 137, 168]), (b!"lne;", [226, 170, 135]), (b!"lneq;", [226, 170, 135]),
   (b!"lneqq;", [226, 137, 168]), (b!"lnsim;", [226, 139, 166]), (b!"loang;", [226, 159, 172]),
   (b!"loarr;", [226, 135, 189]), (b!"lobrk;", [226, 159, 166]), (b!"LongLeftArrow;", [226, 159, 181]),
   (b!"Longleftarrow;", [226, 159, 184]), (b!"longleftarrow;", [226, 159, 181]),
   (b!"LongLeftRightArrow;", [226, 159, 183]), (b!"Longleftrightarrow;", [226, 159, 186]),
   (b!"longleftrightarrow;", [226, 159, 183]), (b!"longmapsto;", [226, 159, 188]),
   (b!"LongRightArrow;", [226, 159, 182]), (b!"Longrightarrow;", [226, 159, 185]),
   (b!"longrightarrow;", [226, 159, 182]), (b!"looparrowleft;", [226, 134, 171]),
   (b!"looparrowright;", [226, 134, 172]), (b!"lopar;", [226, 166, 133]), (b!"loplus;", [226, 168, 173]),
   (b!"lotimes;", [226, 168, 180]), (b!"lowast;", [226, 136, 151]), (b!"lowbar;", [95]),
   (b!"LowerLeftArrow;", [226, 134, 153]), (b!"LowerRightArrow;", [226, 134, 152]), (b!"loz;", [226, 151, 138]),
   (b!"lozenge;", [226, 151, 138]), (b!"lozf;", [226, 167, 171]), (b!"lpar;", [40]),
   (b!"lparlt;", [226, 166, 147]), (b!"lrarr;", [226, 135, 134]), (b!"lrcorner;", [226, 140, 159]),
   (b!"lrhar;", [226, 135, 139]), (b!"lrhard;", [226, 165, 173]), (b!"lrm;", [226, 128, 142]),
   (b!"lrtri;", [226, 138, 191]), (b!"lsaquo;", [226, 128, 185]), (b!"Lscr;", [226, 132, 146]),
   (b!"Lsh;", [226, 134, 176]), (b!"lsh;", [226, 134, 176]), (b!"lsim;", [226, 137, 178]),
   (b!"lsime;", [226, 170, 141]), (b!"lsimg;", [226, 170, 143]), (b!"lsqb;", [91]), (b!"lsquo;", [226, 128, 152]),
   (b!"lsquor;", [226, 128, 154]), (b!"Lstrok;", [197, 129]), (b!"lstrok;", [197, 130]), (b!"LT;", [60]),
   (b!"LT", [60]), (b!"Lt;", [226, 137, 170])]

/-- html_entities.rs 1069-1173. -/
def refs10 : HMap Str :=
  [(b!"lt;", [60]), (b!"lt", [60]), (b!"ltcc;", [226, 170, 166]), (b!"ltcir;", [226, 169, 185]),
   (b!"ltdot;", [226, 139, 150]), (b!"lthree;", [226, 139, 139]), (b!"ltimes;", [226, 139, 137]),
   (b!"ltlarr;", [226, 165, 182]), (b!"ltquest;", [226, 169, 187]), (b!"ltri;", [226, 151, 131]),
   (b!"ltrie;", [226, 138, 180]), (b!"ltrif;", [226, 151, 130]), (b!"ltrPar;", [226, 166, 150]),
   (b!"lurdshar;", [226, 165, 138]), (b!"luruhar;", [226, 165, 166]),
   (b!"lvertneqq;", [226, 137, 168, 239, 184, 128]), (b!"lvnE;", [226, 137, 168, 239, 184, 128]),
   (b!"macr;", [194, 175]), (b!"macr", [194, 175]), (b!"male;", [226, 153, 130]), (b!"malt;", [226, 156, 160]),
   (b!"maltese;", [226, 156, 160]), (b!"Map;", [226, 164, 133]), (b!"map;", [226, 134, 166]),
   (b!"mapsto;", [226, 134, 166]), (b!"mapstodown;", [226, 134, 167]), (b!"mapstoleft;", [226, 134, 164]),
   (b!"mapstoup;", [226, 134, 165]), (b!"marker;", [226, 150, 174]), (b!"mcomma;", [226, 168, 169]),
   (b!"Mcy;", [208, 156]), (b!"mcy;", [208, 188]), (b!"mdash;", [226, 128, 148]), (b!"mDDot;", [226, 136, 186]),
   (b!"measuredangle;", [226, 136, 161]), (b!"MediumSpace;", [226, 129, 159]), (b!"Mellintrf;", [226, 132, 179]),
   (b!"mho;", [226, 132, 167]), (b!"micro;", [194, 181]), (b!"micro", [194, 181]), (b!"mid;", [226, 136, 163]),
   (b!"midast;", [42]), (b!"midcir;", [226, 171, 176]), (b!"middot;", [194, 183]), (b!"middot", [194, 183]),
   (b!"minus;", [226, 136, 146]), (b!"minusb;", [226, 138, 159]), (b!"minusd;", [226, 136, 184]),
   (b!"minusdu;", [226, 168, 170]), (b!"MinusPlus;", [226, 136, 147]), (b!"mlcp;", [226, 171, 155]),
   (b!"mldr;", [226, 128, 166]), (b!"mnplus;", [226, 136, 147]), (b!"models;", [226, 138, 167]),
   (b!"mp;", [226, 136, 147]), (b!"Mscr;", [226, 132, 179]), (b!"mstpos;", [226, 136, 190]),
   (b!"Mu;", [206, 156]), (b!"mu;", [206, 188]), (b!"multimap;", [226, 138, 184]), (b!"mumap;", [226, 138, 184]),
   (b!"nabla;", [226, 136, 135]), (b!"Nacute;", [197, 131]), (b!"nacute;", [197, 132]),
   (b!"nang;", [226, 136, 160, 226, 131, 146]), (b!"nap;", [226, 137, 137]),
   (b!"napE;", [226, 169, 176, 204, 184]), (b!"napid;", [226, 137, 139, 204, 184]), (b!"napos;", [197, 137]),
   (b!"napprox;", [226, 137, 137]), (b!"natur;", [226, 153, 174]), (b!"natural;", [226, 153, 174]),
   (b!"naturals;", [226, 132, 149]), (b!"nbsp;", [194, 160]), (b!"nbump;", [226, 137, 142, 204, 184]),
   (b!"nbumpe;", [226, 137, 143, 204, 184]), (b!"ncap;", [226, 169, 131]), (b!"Ncaron;", [197, 135]),
   (b!"ncaron;", [197, 136]), (b!"Ncedil;", [197, 133]), (b!"ncedil;", [197, 134]), (b!"ncong;", [226, 137, 135]),
   (b!"ncongdot;", [226, 169, 173, 204, 184]), (b!"ncup;", [226, 169, 130]), (b!"Ncy;", [208, 157]),
   (b!"ncy;", [208, 189]), (b!"ndash;", [226, 128, 147]), (b!"ne;", [226, 137, 160]),
   (b!"nearhk;", [226, 164, 164]), (b!"neArr;", [226, 135, 151]), (b!"nearr;", [226, 134, 151]),
   (b!"nearrow;", [226, 134, 151]), (b!"nedot;", [226, 137, 144, 204, 184]),
   (b!"NegativeMediumSpace;", [226, 128, 139]), (b!"NegativeThickSpace;", [226, 128, 139]),
   (b!"NegativeThinSpace;", [226, 128, 139]), (b!"NegativeVeryThinSpace;", [226, 128, 139]),
   (b!"nequiv;", [226, 137, 162]), (b!"nesear;", [226, 164, 168]), (b!"nesim;", [226, 137, 130, 204, 184])]

/-- html_entities.rs 1174-1276. -/
def refs11 : HMap Str :=
  [(b!"NestedGreaterGreater;", [226, 137, 171]), (b!"NestedLessLess;", [226, 137, 170]), (b!"NewLine;", [10]),
   (b!"nexist;", [226, 136, 132]), (b!"nexists;", [226, 136, 132]), (b!"ngE;", [226, 137, 167, 204, 184]),
   (b!"nge;", [226, 137, 177]), (b!"ngeq;", [226, 137, 177]), (b!"ngeqq;", [226, 137, 167, 204, 184]),
   (b!"ngeqslant;", [226, 169, 190, 204, 184]), (b!"nges;", [226, 169, 190, 204, 184]),
   (b!"nGg;", [226, 139, 153, 204, 184]), (b!"ngsim;", [226, 137, 181]),
   (b!"nGt;", [226, 137, 171, 226, 131, 146]), (b!"ngt;", [226, 137, 175]), (b!"ngtr;", [226, 137, 175]),
   (b!"nGtv;", [226, 137, 171, 204, 184]), (b!"nhArr;", [226, 135, 142]), (b!"nharr;", [226, 134, 174]),
   (b!"nhpar;", [226, 171, 178]), (b!"ni;", [226, 136, 139]), (b!"nis;", [226, 139, 188]),
   (b!"nisd;", [226, 139, 186]), (b!"niv;", [226, 136, 139]), (b!"NJcy;", [208, 138]), (b!"njcy;", [209, 154]),
   (b!"nlArr;", [226, 135, 141]), (b!"nlarr;", [226, 134, 154]), (b!"nldr;", [226, 128, 165]),
   (b!"nlE;", [226, 137, 166, 204, 184]), (b!"nle;", [226, 137, 176]), (b!"nLeftarrow;", [226, 135, 141]),
   (b!"nleftarrow;", [226, 134, 154]), (b!"nLeftrightarrow;", [226, 135, 142]),
   (b!"nleftrightarrow;", [226, 134, 174]), (b!"nleq;", [226, 137, 176]), (b!"nleqq;", [226, 137, 166, 204, 184]),
   (b!"nleqslant;", [226, 169, 189, 204, 184]), (b!"nles;", [226, 169, 189, 204, 184]),
   (b!"nless;", [226, 137, 174]), (b!"nLl;", [226, 139, 152, 204, 184]), (b!"nlsim;", [226, 137, 180]),
   (b!"nLt;", [226, 137, 170, 226, 131, 146]), (b!"nlt;", [226, 137, 174]), (b!"nltri;", [226, 139, 170]),
   (b!"nltrie;", [226, 139, 172]), (b!"nLtv;", [226, 137, 170, 204, 184]), (b!"nmid;", [226, 136, 164]),
   (b!"NoBreak;", [226, 129, 160]), (b!"NonBreakingSpace;", [194, 160]), (b!"Nopf;", [226, 132, 149]),
   (b!"Not;", [226, 171, 172]), (b!"not;", [194, 172]), (b!"not", [194, 172]),
   (b!"NotCongruent;", [226, 137, 162]), (b!"NotCupCap;", [226, 137, 173]),
   (b!"NotDoubleVerticalBar;", [226, 136, 166]), (b!"NotElement;", [226, 136, 137]),
   (b!"NotEqual;", [226, 137, 160]), (b!"NotEqualTilde;", [226, 137, 130, 204, 184]),
   (b!"NotExists;", [226, 136, 132]), (b!"NotGreater;", [226, 137, 175]), (b!"NotGreaterEqual;", [226, 137, 177]),
   (b!"NotGreaterFullEqual;", [226, 137, 167, 204, 184]), (b!"NotGreaterGreater;", [226, 137, 171, 204, 184]),
   (b!"NotGreaterLess;", [226, 137, 185]), (b!"NotGreaterSlantEqual;", [226, 169, 190, 204, 184]),
   (b!"NotGreaterTilde;", [226, 137, 181]), (b!"NotHumpDownHump;", [226, 137, 142, 204, 184]),
   (b!"NotHumpEqual;", [226, 137, 143, 204, 184]), (b!"notin;", [226, 136, 137]),
   (b!"notindot;", [226, 139, 181, 204, 184]), (b!"notinE;", [226, 139, 185, 204, 184]),
   (b!"notinva;", [226, 136, 137]), (b!"notinvb;", [226, 139, 183]), (b!"notinvc;", [226, 139, 182]),
   (b!"NotLeftTriangle;", [226, 139, 170]), (b!"NotLeftTriangleBar;", [226, 167, 143, 204, 184]),
   (b!"NotLeftTriangleEqual;", [226, 139, 172]), (b!"NotLess;", [226, 137, 174]),
   (b!"NotLessEqual;", [226, 137, 176]), (b!"NotLessGreater;", [226, 137, 184]),
   (b!"NotLessLess;", [226, 137, 170, 204, 184]), (b!"NotLessSlantEqual;", [226, 169, 189, 204, 184]),
   (b!"NotLessTilde;", [226, 137, 180]), (b!"NotNestedGreaterGreater;", [226, 170, 162, 204, 184]),
   (b!"NotNestedLessLess;", [226, 170, 161, 204, 184]), (b!"notni;", [226, 136, 140]),
   (b!"notniva;", [226, 136, 140]), (b!"notnivb;", [226, 139, 190]), (b!"notnivc;", [226, 139, 189]),
   (b!"NotPrecedes;", [226, 138, 128]), (b!"NotPrecedesEqual;", [226, 170, 175, 204, 184]),
   (b!"NotPrecedesSlantEqual;", [226, 139, 160]), (b!"NotReverseElement;", [226, 136, 140]),
   (b!"NotRightTriangle;", [226, 139, 171]), (b!"NotRightTriangleBar;", [226, 167, 144, 204, 184]),
   (b!"NotRightTriangleEqual;", [226, 139, 173]), (b!"NotSquareSubset;", [226, 138, 143, 204, 184]),
   (b!"NotSquareSubsetEqual;", [226, 139, 162])]

/-- html_entities.rs 1277-1378. -/
def refs12 : HMap Str :=
  [(b!"NotSquareSuperset;", [226, 138, 144, 204, 184]), (b!"NotSquareSupersetEqual;", [226, 139, 163]),
   (b!"NotSubset;", [226, 138, 130, 226, 131, 146]), (b!"NotSubsetEqual;", [226, 138, 136]),
   (b!"NotSucceeds;", [226, 138, 129]), (b!"NotSucceedsEqual;", [226, 170, 176, 204, 184]),
   (b!"NotSucceedsSlantEqual;", [226, 139, 161]), (b!"NotSucceedsTilde;", [226, 137, 191, 204, 184]),
   (b!"NotSuperset;", [226, 138, 131, 226, 131, 146]), (b!"NotSupersetEqual;", [226, 138, 137]),
   (b!"NotTilde;", [226, 137, 129]), (b!"NotTildeEqual;", [226, 137, 132]),
   (b!"NotTildeFullEqual;", [226, 137, 135]), (b!"NotTildeTilde;", [226, 137, 137]),
   (b!"NotVerticalBar;", [226, 136, 164]), (b!"npar;", [226, 136, 166]), (b!"nparallel;", [226, 136, 166]),
   (b!"nparsl;", [226, 171, 189, 226, 131, 165]), (b!"npart;", [226, 136, 130, 204, 184]),
   (b!"npolint;", [226, 168, 148]), (b!"npr;", [226, 138, 128]), (b!"nprcue;", [226, 139, 160]),
   (b!"npre;", [226, 170, 175, 204, 184]), (b!"nprec;", [226, 138, 128]),
   (b!"npreceq;", [226, 170, 175, 204, 184]), (b!"nrArr;", [226, 135, 143]), (b!"nrarr;", [226, 134, 155]),
   (b!"nrarrc;", [226, 164, 179, 204, 184]), (b!"nrarrw;", [226, 134, 157, 204, 184]),
   (b!"nRightarrow;", [226, 135, 143]), (b!"nrightarrow;", [226, 134, 155]), (b!"nrtri;", [226, 139, 171]),
   (b!"nrtrie;", [226, 139, 173]), (b!"nsc;", [226, 138, 129]), (b!"nsccue;", [226, 139, 161]),
   (b!"nsce;", [226, 170, 176, 204, 184]), (b!"nshortmid;", [226, 136, 164]),
   (b!"nshortparallel;", [226, 136, 166]), (b!"nsim;", [226, 137, 129]), (b!"nsime;", [226, 137, 132]),
   (b!"nsimeq;", [226, 137, 132]), (b!"nsmid;", [226, 136, 164]), (b!"nspar;", [226, 136, 166]),
   (b!"nsqsube;", [226, 139, 162]), (b!"nsqsupe;", [226, 139, 163]), (b!"nsub;", [226, 138, 132]),
   (b!"nsubE;", [226, 171, 133, 204, 184]), (b!"nsube;", [226, 138, 136]),
   (b!"nsubset;", [226, 138, 130, 226, 131, 146]), (b!"nsubseteq;", [226, 138, 136]),
   (b!"nsubseteqq;", [226, 171, 133, 204, 184]), (b!"nsucc;", [226, 138, 129]),
   (b!"nsucceq;", [226, 170, 176, 204, 184]), (b!"nsup;", [226, 138, 133]),
   (b!"nsupE;", [226, 171, 134, 204, 184]), (b!"nsupe;", [226, 138, 137]),
   (b!"nsupset;", [226, 138, 131, 226, 131, 146]), (b!"nsupseteq;", [226, 138, 137]),
   (b!"nsupseteqq;", [226, 171, 134, 204, 184]), (b!"ntgl;", [226, 137, 185]), (b!"Ntilde;", [195, 145]),
   (b!"Ntilde", [195, 145]), (b!"ntilde;", [195, 177]), (b!"ntilde", [195, 177]), (b!"ntlg;", [226, 137, 184]),
   (b!"ntriangleleft;", [226, 139, 170]), (b!"ntrianglelefteq;", [226, 139, 172]),
   (b!"ntriangleright;", [226, 139, 171]), (b!"ntrianglerighteq;", [226, 139, 173]), (b!"Nu;", [206, 157]),
   (b!"nu;", [206, 189]), (b!"num;", [35]), (b!"numero;", [226, 132, 150]), (b!"numsp;", [226, 128, 135]),
   (b!"nvap;", [226, 137, 141, 226, 131, 146]), (b!"nVDash;", [226, 138, 175]), (b!"nVdash;", [226, 138, 174]),
   (b!"nvDash;", [226, 138, 173]), (b!"nvdash;", [226, 138, 172]), (b!"nvge;", [226, 137, 165, 226, 131, 146]),
   (b!"nvgt;", [62, 226, 131, 146]), (b!"nvHarr;", [226, 164, 132]), (b!"nvinfin;", [226, 167, 158]),
   (b!"nvlArr;", [226, 164, 130]), (b!"nvle;", [226, 137, 164, 226, 131, 146]), (b!"nvlt;", [60, 226, 131, 146]),
   (b!"nvltrie;", [226, 138, 180, 226, 131, 146]), (b!"nvrArr;", [226, 164, 131]),
   (b!"nvrtrie;", [226, 138, 181, 226, 131, 146]), (b!"nvsim;", [226, 136, 188, 226, 131, 146]),
   (b!"nwarhk;", [226, 164, 163]), (b!"nwArr;", [226, 135, 150]), (b!"nwarr;", [226, 134, 150]),
   (b!"nwarrow;", [226, 134, 150]), (b!"nwnear;", [226, 164, 167]), (b!"Oacute;", [195, 147]),
   (b!"Oacute", [195, 147]), (b!"oacute;", [195, 179]), (b!"oacute", [195, 179]), (b!"oast;", [226, 138, 155])]

/-- html_entities.rs 1379-1485. -/
def refs13 : HMap Str :=
  [(b!"ocir;", [226, 138, 154]), (b!"Ocirc;", [195, 148]), (b!"Ocirc", [195, 148]), (b!"ocirc;", [195, 180]),
   (b!"ocirc", [195, 180]), (b!"Ocy;", [208, 158]), (b!"ocy;", [208, 190]), (b!"odash;", [226, 138, 157]),
   (b!"Odblac;", [197, 144]), (b!"odblac;", [197, 145]), (b!"odiv;", [226, 168, 184]),
   (b!"odot;", [226, 138, 153]), (b!"odsold;", [226, 166, 188]), (b!"OElig;", [197, 146]),
   (b!"oelig;", [197, 147]), (b!"ofcir;", [226, 166, 191]), (b!"ogon;", [203, 155]), (b!"Ograve;", [195, 146]),
   (b!"Ograve", [195, 146]), (b!"ograve;", [195, 178]), (b!"ograve", [195, 178]), (b!"ogt;", [226, 167, 129]),
   (b!"ohbar;", [226, 166, 181]), (b!"ohm;", [206, 169]), (b!"oint;", [226, 136, 174]),
   (b!"olarr;", [226, 134, 186]), (b!"olcir;", [226, 166, 190]), (b!"olcross;", [226, 166, 187]),
   (b!"oline;", [226, 128, 190]), (b!"olt;", [226, 167, 128]), (b!"Omacr;", [197, 140]), (b!"omacr;", [197, 141]),
   (b!"Omega;", [206, 169]), (b!"omega;", [207, 137]), (b!"Omicron;", [206, 159]), (b!"omicron;", [206, 191]),
   (b!"omid;", [226, 166, 182]), (b!"ominus;", [226, 138, 150]), (b!"opar;", [226, 166, 183]),
   (b!"OpenCurlyDoubleQuote;", [226, 128, 156]), (b!"OpenCurlyQuote;", [226, 128, 152]),
   (b!"operp;", [226, 166, 185]), (b!"oplus;", [226, 138, 149]), (b!"Or;", [226, 169, 148]),
   (b!"or;", [226, 136, 168]), (b!"orarr;", [226, 134, 187]), (b!"ord;", [226, 169, 157]),
   (b!"order;", [226, 132, 180]), (b!"orderof;", [226, 132, 180]), (b!"ordf;", [194, 170]),
   (b!"ordf", [194, 170]), (b!"ordm;", [194, 186]), (b!"ordm", [194, 186]), (b!"origof;", [226, 138, 182]),
   (b!"oror;", [226, 169, 150]), (b!"orslope;", [226, 169, 151]), (b!"orv;", [226, 169, 155]),
   (b!"oS;", [226, 147, 136]), (b!"oscr;", [226, 132, 180]), (b!"Oslash;", [195, 152]), (b!"Oslash", [195, 152]),
   (b!"oslash;", [195, 184]), (b!"oslash", [195, 184]), (b!"osol;", [226, 138, 152]), (b!"Otilde;", [195, 149]),
   (b!"Otilde", [195, 149]), (b!"otilde;", [195, 181]), (b!"otilde", [195, 181]), (b!"Otimes;", [226, 168, 183]),
   (b!"otimes;", [226, 138, 151]), (b!"otimesas;", [226, 168, 182]), (b!"Ouml;", [195, 150]),
   (b!"Ouml", [195, 150]), (b!"ouml;", [195, 182]), (b!"ouml", [195, 182]), (b!"ovbar;", [226, 140, 189]),
   (b!"OverBar;", [226, 128, 190]), (b!"OverBrace;", [226, 143, 158]), (b!"OverBracket;", [226, 142, 180]),
   (b!"OverParenthesis;", [226, 143, 156]), (b!"par;", [226, 136, 165]), (b!"para;", [194, 182]),
   (b!"para", [194, 182]), (b!"parallel;", [226, 136, 165]), (b!"parsim;", [226, 171, 179]),
   (b!"parsl;", [226, 171, 189]), (b!"part;", [226, 136, 130]), (b!"PartialD;", [226, 136, 130]),
   (b!"Pcy;", [208, 159]), (b!"pcy;", [208, 191]), (b!"percnt;", [37]), (b!"period;", [46]),
   (b!"permil;", [226, 128, 176]), (b!"perp;", [226, 138, 165]), (b!"pertenk;", [226, 128, 177]),
   (b!"Phi;", [206, 166]), (b!"phi;", [207, 134]), (b!"phiv;", [207, 149]), (b!"phmmat;", [226, 132, 179]),
   (b!"phone;", [226, 152, 142])]

/-- html_entities.rs 1486-1593. -/
def refs14 : HMap Str :=
  [(b!"Pi;", [206, 160]), (b!"pi;", [207, 128]), (b!"pitchfork;", [226, 139, 148]), (b!"piv;", [207, 150]),
   (b!"planck;", [226, 132, 143]), (b!"planckh;", [226, 132, 142]), (b!"plankv;", [226, 132, 143]),
   (b!"plus;", [43]), (b!"plusacir;", [226, 168, 163]), (b!"plusb;", [226, 138, 158]),
   (b!"pluscir;", [226, 168, 162]), (b!"plusdo;", [226, 136, 148]), (b!"plusdu;", [226, 168, 165]),
   (b!"pluse;", [226, 169, 178]), (b!"PlusMinus;", [194, 177]), (b!"plusmn;", [194, 177]),
   (b!"plusmn", [194, 177]), (b!"plussim;", [226, 168, 166]), (b!"plustwo;", [226, 168, 167]),
   (b!"pm;", [194, 177]), (b!"Poincareplane;", [226, 132, 140]), (b!"pointint;", [226, 168, 149]),
   (b!"Popf;", [226, 132, 153]), (b!"pound;", [194, 163]), (b!"pound", [194, 163]), (b!"Pr;", [226, 170, 187]),
   (b!"pr;", [226, 137, 186]), (b!"prap;", [226, 170, 183]), (b!"prcue;", [226, 137, 188]),
   (b!"prE;", [226, 170, 179]), (b!"pre;", [226, 170, 175]), (b!"prec;", [226, 137, 186]),
   (b!"precapprox;", [226, 170, 183]), (b!"preccurlyeq;", [226, 137, 188]), (b!"Precedes;", [226, 137, 186]),
   (b!"PrecedesEqual;", [226, 170, 175]), (b!"PrecedesSlantEqual;", [226, 137, 188]),
   (b!"PrecedesTilde;", [226, 137, 190]), (b!"preceq;", [226, 170, 175]), (b!"precnapprox;", [226, 170, 185]),
   (b!"precneqq;", [226, 170, 181]), (b!"precnsim;", [226, 139, 168]), (b!"precsim;", [226, 137, 190]),
   (b!"Prime;", [226, 128, 179]), (b!"prime;", [226, 128, 178]), (b!"primes;", [226, 132, 153]),
   (b!"prnap;", [226, 170, 185]), (b!"prnE;", [226, 170, 181]), (b!"prnsim;", [226, 139, 168]),
   (b!"prod;", [226, 136, 143]), (b!"Product;", [226, 136, 143]), (b!"profalar;", [226, 140, 174]),
   (b!"profline;", [226, 140, 146]), (b!"profsurf;", [226, 140, 147]), (b!"prop;", [226, 136, 157]),
   (b!"Proportion;", [226, 136, 183]), (b!"Proportional;", [226, 136, 157]), (b!"propto;", [226, 136, 157]),
   (b!"prsim;", [226, 137, 190]), (b!"prurel;", [226, 138, 176]), (b!"Psi;", [206, 168]), (b!"psi;", [207, 136]),
   (b!"puncsp;", [226, 128, 136]), (b!"qint;", [226, 168, 140]), (b!"Qopf;", [226, 132, 154]),
   (b!"qprime;", [226, 129, 151]), (b!"quaternions;", [226, 132, 141]), (b!"quatint;", [226, 168, 150]),
   (b!"quest;", [63]), (b!"questeq;", [226, 137, 159]), (b!"QUOT;", [34]), (b!"QUOT", [34]), (b!"quot;", [34]),
   (b!"quot", [34]), (b!"rAarr;", [226, 135, 155]), (b!"race;", [226, 136, 189, 204, 177]),
   (b!"Racute;", [197, 148]), (b!"racute;", [197, 149]), (b!"radic;", [226, 136, 154]),
   (b!"raemptyv;", [226, 166, 179]), (b!"Rang;", [226, 159, 171]), (b!"rang;", [226, 159, 169]),
   (b!"rangd;", [226, 166, 146]), (b!"range;", [226, 166, 165]), (b!"rangle;", [226, 159, 169]),
   (b!"raquo;", [194, 187]), (b!"raquo", [194, 187]), (b!"Rarr;", [226, 134, 160]), (b!"rArr;", [226, 135, 146]),
   (b!"rarr;", [226, 134, 146]), (b!"rarrap;", [226, 165, 181]), (b!"rarrb;", [226, 135, 165]),
   (b!"rarrbfs;", [226, 164, 160]), (b!"rarrc;", [226, 164, 179]), (b!"rarrfs;", [226, 164, 158]),
   (b!"rarrhk;", [226, 134, 170]), (b!"rarrlp;", [226, 134, 172]), (b!"rarrpl;", [226, 165, 133]),
   (b!"rarrsim;", [226, 165, 180]), (b!"Rarrtl;", [226, 164, 150])]

/-- html_entities.rs 1594-1695. -/
def refs15 : HMap Str :=
  [(b!"rarrtl;", [226, 134, 163]), (b!"rarrw;", [226, 134, 157]), (b!"rAtail;", [226, 164, 156]),
   (b!"ratail;", [226, 164, 154]), (b!"ratio;", [226, 136, 182]), (b!"rationals;", [226, 132, 154]),
   (b!"RBarr;", [226, 164, 144]), (b!"rBarr;", [226, 164, 143]), (b!"rbarr;", [226, 164, 141]),
   (b!"rbbrk;", [226, 157, 179]), (b!"rbrace;", [125]), (b!"rbrack;", [93]), (b!"rbrke;", [226, 166, 140]),
   (b!"rbrksld;", [226, 166, 142]), (b!"rbrkslu;", [226, 166, 144]), (b!"Rcaron;", [197, 152]),
   (b!"rcaron;", [197, 153]), (b!"Rcedil;", [197, 150]), (b!"rcedil;", [197, 151]), (b!"rceil;", [226, 140, 137]),
   (b!"rcub;", [125]), (b!"Rcy;", [208, 160]), (b!"rcy;", [209, 128]), (b!"rdca;", [226, 164, 183]),
   (b!"rdldhar;", [226, 165, 169]), (b!"rdquo;", [226, 128, 157]), (b!"rdquor;", [226, 128, 157]),
   (b!"rdsh;", [226, 134, 179]), (b!"Re;", [226, 132, 156]), (b!"real;", [226, 132, 156]),
   (b!"realine;", [226, 132, 155]), (b!"realpart;", [226, 132, 156]), (b!"reals;", [226, 132, 157]),
   (b!"rect;", [226, 150, 173]), (b!"REG;", [194, 174]), (b!"REG", [194, 174]), (b!"reg;", [194, 174]),
   (b!"reg", [194, 174]), (b!"ReverseElement;", [226, 136, 139]), (b!"ReverseEquilibrium;", [226, 135, 139]),
   (b!"ReverseUpEquilibrium;", [226, 165, 175]), (b!"rfisht;", [226, 165, 189]), (b!"rfloor;", [226, 140, 139]),
   (b!"Rfr;", [226, 132, 156]), (b!"rHar;", [226, 165, 164]), (b!"rhard;", [226, 135, 129]),
   (b!"rharu;", [226, 135, 128]), (b!"rharul;", [226, 165, 172]), (b!"Rho;", [206, 161]), (b!"rho;", [207, 129]),
   (b!"rhov;", [207, 177]), (b!"RightAngleBracket;", [226, 159, 169]), (b!"RightArrow;", [226, 134, 146]),
   (b!"Rightarrow;", [226, 135, 146]), (b!"rightarrow;", [226, 134, 146]), (b!"RightArrowBar;", [226, 135, 165]),
   (b!"RightArrowLeftArrow;", [226, 135, 132]), (b!"rightarrowtail;", [226, 134, 163]),
   (b!"RightCeiling;", [226, 140, 137]), (b!"RightDoubleBracket;", [226, 159, 167]),
   (b!"RightDownTeeVector;", [226, 165, 157]), (b!"RightDownVector;", [226, 135, 130]),
   (b!"RightDownVectorBar;", [226, 165, 149]), (b!"RightFloor;", [226, 140, 139]),
   (b!"rightharpoondown;", [226, 135, 129]), (b!"rightharpoonup;", [226, 135, 128]),
   (b!"rightleftarrows;", [226, 135, 132]), (b!"rightleftharpoons;", [226, 135, 140]),
   (b!"rightrightarrows;", [226, 135, 137]), (b!"rightsquigarrow;", [226, 134, 157]),
   (b!"RightTee;", [226, 138, 162]), (b!"RightTeeArrow;", [226, 134, 166]),
   (b!"RightTeeVector;", [226, 165, 155]), (b!"rightthreetimes;", [226, 139, 140]),
   (b!"RightTriangle;", [226, 138, 179]), (b!"RightTriangleBar;", [226, 167, 144]),
   (b!"RightTriangleEqual;", [226, 138, 181]), (b!"RightUpDownVector;", [226, 165, 143]),
   (b!"RightUpTeeVector;", [226, 165, 156]), (b!"RightUpVector;", [226, 134, 190]),
   (b!"RightUpVectorBar;", [226, 165, 148]), (b!"RightVector;", [226, 135, 128]),
   (b!"RightVectorBar;", [226, 165, 147]), (b!"ring;", [203, 154]), (b!"risingdotseq;", [226, 137, 147]),
   (b!"rlarr;", [226, 135, 132]), (b!"rlhar;", [226, 135, 140]), (b!"rlm;", [226, 128, 143]),
   (b!"rmoust;", [226, 142, 177]), (b!"rmoustache;", [226, 142, 177]), (b!"rnmid;", [226, 171, 174]),
   (b!"roang;", [226, 159, 173]), (b!"roarr;", [226, 135, 190]), (b!"robrk;", [226, 159, 167]),
   (b!"ropar;", [226, 166, 134]), (b!"Ropf;", [226, 132, 157]), (b!"roplus;", [226, 168, 174]),
   (b!"rotimes;", [226, 168, 181]), (b!"RoundImplies;", [226, 165, 176]), (b!"rpar;", [41])]

/-- html_entities.rs 1696-1798. -/
def refs16 : HMap Str :=
  [(b!"rpargt;", [226, 166, 148]), (b!"rppolint;", [226, 168, 146]), (b!"rrarr;", [226, 135, 137]),
   (b!"Rrightarrow;", [226, 135, 155]), (b!"rsaquo;", [226, 128, 186]), (b!"Rscr;", [226, 132, 155]),
   (b!"Rsh;", [226, 134, 177]), (b!"rsh;", [226, 134, 177]), (b!"rsqb;", [93]), (b!"rsquo;", [226, 128, 153]),
   (b!"rsquor;", [226, 128, 153]), (b!"rthree;", [226, 139, 140]), (b!"rtimes;", [226, 139, 138]),
   (b!"rtri;", [226, 150, 185]), (b!"rtrie;", [226, 138, 181]), (b!"rtrif;", [226, 150, 184]),
   (b!"rtriltri;", [226, 167, 142]), (b!"RuleDelayed;", [226, 167, 180]), (b!"ruluhar;", [226, 165, 168]),
   (b!"rx;", [226, 132, 158]), (b!"Sacute;", [197, 154]), (b!"sacute;", [197, 155]),
   (b!"sbquo;", [226, 128, 154]), (b!"Sc;", [226, 170, 188]), (b!"sc;", [226, 137, 187]),
   (b!"scap;", [226, 170, 184]), (b!"Scaron;", [197, 160]), (b!"scaron;", [197, 161]),
   (b!"sccue;", [226, 137, 189]), (b!"scE;", [226, 170, 180]), (b!"sce;", [226, 170, 176]),
   (b!"Scedil;", [197, 158]), (b!"scedil;", [197, 159]), (b!"Scirc;", [197, 156]), (b!"scirc;", [197, 157]),
   (b!"scnap;", [226, 170, 186]), (b!"scnE;", [226, 170, 182]), (b!"scnsim;", [226, 139, 169]),
   (b!"scpolint;", [226, 168, 147]), (b!"scsim;", [226, 137, 191]), (b!"Scy;", [208, 161]),
   (b!"scy;", [209, 129]), (b!"sdot;", [226, 139, 133]), (b!"sdotb;", [226, 138, 161]),
   (b!"sdote;", [226, 169, 166]), (b!"searhk;", [226, 164, 165]), (b!"seArr;", [226, 135, 152]),
   (b!"searr;", [226, 134, 152]), (b!"searrow;", [226, 134, 152]), (b!"sect;", [194, 167]),
   (b!"sect", [194, 167]), (b!"semi;", [59]), (b!"seswar;", [226, 164, 169]), (b!"setminus;", [226, 136, 150]),
   (b!"setmn;", [226, 136, 150]), (b!"sext;", [226, 156, 182]), (b!"sfrown;", [226, 140, 162]),
   (b!"sharp;", [226, 153, 175]), (b!"SHCHcy;", [208, 169]), (b!"shchcy;", [209, 137]), (b!"SHcy;", [208, 168]),
   (b!"shcy;", [209, 136]), (b!"ShortDownArrow;", [226, 134, 147]), (b!"ShortLeftArrow;", [226, 134, 144]),
   (b!"shortmid;", [226, 136, 163]), (b!"shortparallel;", [226, 136, 165]),
   (b!"ShortRightArrow;", [226, 134, 146]), (b!"ShortUpArrow;", [226, 134, 145]), (b!"shy;", [194, 173]),
   (b!"shy", [194, 173]), (b!"Sigma;", [206, 163]), (b!"sigma;", [207, 131]), (b!"sigmaf;", [207, 130]),
   (b!"sigmav;", [207, 130]), (b!"sim;", [226, 136, 188]), (b!"simdot;", [226, 169, 170]),
   (b!"sime;", [226, 137, 131]), (b!"simeq;", [226, 137, 131]), (b!"simg;", [226, 170, 158]),
   (b!"simgE;", [226, 170, 160]), (b!"siml;", [226, 170, 157]), (b!"simlE;", [226, 170, 159]),
   (b!"simne;", [226, 137, 134]), (b!"simplus;", [226, 168, 164]), (b!"simrarr;", [226, 165, 178]),
   (b!"slarr;", [226, 134, 144]), (b!"SmallCircle;", [226, 136, 152]), (b!"smallsetminus;", [226, 136, 150]),
   (b!"smashp;", [226, 168, 179]), (b!"smeparsl;", [226, 167, 164]), (b!"smid;", [226, 136, 163]),
   (b!"smile;", [226, 140, 163]), (b!"smt;", [226, 170, 170]), (b!"smte;", [226, 170, 172]),
   (b!"smtes;", [226, 170, 172, 239, 184, 128]), (b!"SOFTcy;", [208, 172]), (b!"softcy;", [209, 140]),
   (b!"sol;", [47]), (b!"solb;", [226, 167, 132]), (b!"solbar;", [226, 140, 191])]

/-- html_entities.rs 1801-1902. -/
def refs17 : HMap Str :=
  [(b!"spades;", [226, 153, 160]), (b!"spadesuit;", [226, 153, 160]), (b!"spar;", [226, 136, 165]),
   (b!"sqcap;", [226, 138, 147]), (b!"sqcaps;", [226, 138, 147, 239, 184, 128]), (b!"sqcup;", [226, 138, 148]),
   (b!"sqcups;", [226, 138, 148, 239, 184, 128]), (b!"Sqrt;", [226, 136, 154]), (b!"sqsub;", [226, 138, 143]),
   (b!"sqsube;", [226, 138, 145]), (b!"sqsubset;", [226, 138, 143]), (b!"sqsubseteq;", [226, 138, 145]),
   (b!"sqsup;", [226, 138, 144]), (b!"sqsupe;", [226, 138, 146]), (b!"sqsupset;", [226, 138, 144]),
   (b!"sqsupseteq;", [226, 138, 146]), (b!"squ;", [226, 150, 161]), (b!"Square;", [226, 150, 161]),
   (b!"square;", [226, 150, 161]), (b!"SquareIntersection;", [226, 138, 147]),
   (b!"SquareSubset;", [226, 138, 143]), (b!"SquareSubsetEqual;", [226, 138, 145]),
   (b!"SquareSuperset;", [226, 138, 144]), (b!"SquareSupersetEqual;", [226, 138, 146]),
   (b!"SquareUnion;", [226, 138, 148]), (b!"squarf;", [226, 150, 170]), (b!"squf;", [226, 150, 170]),
   (b!"srarr;", [226, 134, 146]), (b!"ssetmn;", [226, 136, 150]), (b!"ssmile;", [226, 140, 163]),
   (b!"sstarf;", [226, 139, 134]), (b!"Star;", [226, 139, 134]), (b!"star;", [226, 152, 134]),
   (b!"starf;", [226, 152, 133]), (b!"straightepsilon;", [207, 181]), (b!"straightphi;", [207, 149]),
   (b!"strns;", [194, 175]), (b!"Sub;", [226, 139, 144]), (b!"sub;", [226, 138, 130]),
   (b!"subdot;", [226, 170, 189]), (b!"subE;", [226, 171, 133]), (b!"sube;", [226, 138, 134]),
   (b!"subedot;", [226, 171, 131]), (b!"submult;", [226, 171, 129]), (b!"subnE;", [226, 171, 139]),
   (b!"subne;", [226, 138, 138]), (b!"subplus;", [226, 170, 191]), (b!"subrarr;", [226, 165, 185]),
   (b!"Subset;", [226, 139, 144]), (b!"subset;", [226, 138, 130]), (b!"subseteq;", [226, 138, 134]),
   (b!"subseteqq;", [226, 171, 133]), (b!"SubsetEqual;", [226, 138, 134]), (b!"subsetneq;", [226, 138, 138]),
   (b!"subsetneqq;", [226, 171, 139]), (b!"subsim;", [226, 171, 135]), (b!"subsub;", [226, 171, 149]),
   (b!"subsup;", [226, 171, 147]), (b!"succ;", [226, 137, 187]), (b!"succapprox;", [226, 170, 184]),
   (b!"succcurlyeq;", [226, 137, 189]), (b!"Succeeds;", [226, 137, 187]), (b!"SucceedsEqual;", [226, 170, 176]),
   (b!"SucceedsSlantEqual;", [226, 137, 189]), (b!"SucceedsTilde;", [226, 137, 191]),
   (b!"succeq;", [226, 170, 176]), (b!"succnapprox;", [226, 170, 186]), (b!"succneqq;", [226, 170, 182]),
   (b!"succnsim;", [226, 139, 169]), (b!"succsim;", [226, 137, 191]), (b!"SuchThat;", [226, 136, 139]),
   (b!"Sum;", [226, 136, 145]), (b!"sum;", [226, 136, 145]), (b!"sung;", [226, 153, 170]),
   (b!"Sup;", [226, 139, 145]), (b!"sup;", [226, 138, 131]), (b!"sup1;", [194, 185]), (b!"sup1", [194, 185]),
   (b!"sup2;", [194, 178]), (b!"sup2", [194, 178]), (b!"sup3;", [194, 179]), (b!"sup3", [194, 179]),
   (b!"supdot;", [226, 170, 190]), (b!"supdsub;", [226, 171, 152]), (b!"supE;", [226, 171, 134]),
   (b!"supe;", [226, 138, 135]), (b!"supedot;", [226, 171, 132]), (b!"Superset;", [226, 138, 131]),
   (b!"SupersetEqual;", [226, 138, 135]), (b!"suphsol;", [226, 159, 137]), (b!"suphsub;", [226, 171, 151]),
   (b!"suplarr;", [226, 165, 187]), (b!"supmult;", [226, 171, 130]), (b!"supnE;", [226, 171, 140]),
   (b!"supne;", [226, 138, 139]), (b!"supplus;", [226, 171, 128]), (b!"Supset;", [226, 139, 145]),
   (b!"supset;", [226, 138, 131]), (b!"supseteq;", [226, 138, 135]), (b!"supseteqq;", [226, 171, 134])]

/-- html_entities.rs 1903-2008. -/
def refs18 : HMap Str :=
  [(b!"supsetneq;", [226, 138, 139]), (b!"supsetneqq;", [226, 171, 140]), (b!"supsim;", [226, 171, 136]),
   (b!"supsub;", [226, 171, 148]), (b!"supsup;", [226, 171, 150]), (b!"swarhk;", [226, 164, 166]),
   (b!"swArr;", [226, 135, 153]), (b!"swarr;", [226, 134, 153]), (b!"swarrow;", [226, 134, 153]),
   (b!"swnwar;", [226, 164, 170]), (b!"szlig;", [195, 159]), (b!"szlig", [195, 159]), (b!"Tab;", [9]),
   (b!"target;", [226, 140, 150]), (b!"Tau;", [206, 164]), (b!"tau;", [207, 132]), (b!"tbrk;", [226, 142, 180]),
   (b!"Tcaron;", [197, 164]), (b!"tcaron;", [197, 165]), (b!"Tcedil;", [197, 162]), (b!"tcedil;", [197, 163]),
   (b!"Tcy;", [208, 162]), (b!"tcy;", [209, 130]), (b!"tdot;", [226, 131, 155]), (b!"telrec;", [226, 140, 149]),
   (b!"there4;", [226, 136, 180]), (b!"Therefore;", [226, 136, 180]), (b!"therefore;", [226, 136, 180]),
   (b!"Theta;", [206, 152]), (b!"theta;", [206, 184]), (b!"thetasym;", [207, 145]), (b!"thetav;", [207, 145]),
   (b!"thickapprox;", [226, 137, 136]), (b!"thicksim;", [226, 136, 188]),
   (b!"ThickSpace;", [226, 129, 159, 226, 128, 138]), (b!"thinsp;", [226, 128, 137]),
   (b!"ThinSpace;", [226, 128, 137]), (b!"thkap;", [226, 137, 136]), (b!"thksim;", [226, 136, 188]),
   (b!"THORN;", [195, 158]), (b!"THORN", [195, 158]), (b!"thorn;", [195, 190]), (b!"thorn", [195, 190]),
   (b!"Tilde;", [226, 136, 188]), (b!"tilde;", [203, 156]), (b!"TildeEqual;", [226, 137, 131]),
   (b!"TildeFullEqual;", [226, 137, 133]), (b!"TildeTilde;", [226, 137, 136]), (b!"times;", [195, 151]),
   (b!"times", [195, 151]), (b!"timesb;", [226, 138, 160]), (b!"timesbar;", [226, 168, 177]),
   (b!"timesd;", [226, 168, 176]), (b!"tint;", [226, 136, 173]), (b!"toea;", [226, 164, 168]),
   (b!"top;", [226, 138, 164]), (b!"topbot;", [226, 140, 182]), (b!"topcir;", [226, 171, 177]),
   (b!"topfork;", [226, 171, 154]), (b!"tosa;", [226, 164, 169]), (b!"tprime;", [226, 128, 180]),
   (b!"TRADE;", [226, 132, 162]), (b!"trade;", [226, 132, 162]), (b!"triangle;", [226, 150, 181]),
   (b!"triangledown;", [226, 150, 191]), (b!"triangleleft;", [226, 151, 131]),
   (b!"trianglelefteq;", [226, 138, 180]), (b!"triangleq;", [226, 137, 156]),
   (b!"triangleright;", [226, 150, 185]), (b!"trianglerighteq;", [226, 138, 181]), (b!"tridot;", [226, 151, 172]),
   (b!"trie;", [226, 137, 156]), (b!"triminus;", [226, 168, 186]), (b!"TripleDot;", [226, 131, 155]),
   (b!"triplus;", [226, 168, 185]), (b!"trisb;", [226, 167, 141]), (b!"tritime;", [226, 168, 187]),
   (b!"trpezium;", [226, 143, 162]), (b!"TScy;", [208, 166]), (b!"tscy;", [209, 134]), (b!"TSHcy;", [208, 139]),
   (b!"tshcy;", [209, 155]), (b!"Tstrok;", [197, 166]), (b!"tstrok;", [197, 167]), (b!"twixt;", [226, 137, 172]),
   (b!"twoheadleftarrow;", [226, 134, 158]), (b!"twoheadrightarrow;", [226, 134, 160]), (b!"Uacute;", [195, 154]),
   (b!"Uacute", [195, 154]), (b!"uacute;", [195, 186]), (b!"uacute", [195, 186]), (b!"Uarr;", [226, 134, 159]),
   (b!"uArr;", [226, 135, 145]), (b!"uarr;", [226, 134, 145]), (b!"Uarrocir;", [226, 165, 137]),
   (b!"Ubrcy;", [208, 142]), (b!"ubrcy;", [209, 158]), (b!"Ubreve;", [197, 172]), (b!"ubreve;", [197, 173]),
   (b!"Ucirc;", [195, 155])]

/-- html_entities.rs 2009-2114. -/
def refs19 : HMap Str :=
  [(b!"Ucirc", [195, 155]), (b!"ucirc;", [195, 187]), (b!"ucirc", [195, 187]), (b!"Ucy;", [208, 163]),
   (b!"ucy;", [209, 131]), (b!"udarr;", [226, 135, 133]), (b!"Udblac;", [197, 176]), (b!"udblac;", [197, 177]),
   (b!"udhar;", [226, 165, 174]), (b!"ufisht;", [226, 165, 190]), (b!"Ugrave;", [195, 153]),
   (b!"Ugrave", [195, 153]), (b!"ugrave;", [195, 185]), (b!"ugrave", [195, 185]), (b!"uHar;", [226, 165, 163]),
   (b!"uharl;", [226, 134, 191]), (b!"uharr;", [226, 134, 190]), (b!"uhblk;", [226, 150, 128]),
   (b!"ulcorn;", [226, 140, 156]), (b!"ulcorner;", [226, 140, 156]), (b!"ulcrop;", [226, 140, 143]),
   (b!"ultri;", [226, 151, 184]), (b!"Umacr;", [197, 170]), (b!"umacr;", [197, 171]), (b!"uml;", [194, 168]),
   (b!"uml", [194, 168]), (b!"UnderBar;", [95]), (b!"UnderBrace;", [226, 143, 159]),
   (b!"UnderBracket;", [226, 142, 181]), (b!"UnderParenthesis;", [226, 143, 157]), (b!"Union;", [226, 139, 131]),
   (b!"UnionPlus;", [226, 138, 142]), (b!"Uogon;", [197, 178]), (b!"uogon;", [197, 179]),
   (b!"UpArrow;", [226, 134, 145]), (b!"Uparrow;", [226, 135, 145]), (b!"uparrow;", [226, 134, 145]),
   (b!"UpArrowBar;", [226, 164, 146]), (b!"UpArrowDownArrow;", [226, 135, 133]),
   (b!"UpDownArrow;", [226, 134, 149]), (b!"Updownarrow;", [226, 135, 149]), (b!"updownarrow;", [226, 134, 149]),
   (b!"UpEquilibrium;", [226, 165, 174]), (b!"upharpoonleft;", [226, 134, 191]),
   (b!"upharpoonright;", [226, 134, 190]), (b!"uplus;", [226, 138, 142]), (b!"UpperLeftArrow;", [226, 134, 150]),
   (b!"UpperRightArrow;", [226, 134, 151]), (b!"Upsi;", [207, 146]), (b!"upsi;", [207, 133]),
   (b!"upsih;", [207, 146]), (b!"Upsilon;", [206, 165]), (b!"upsilon;", [207, 133]),
   (b!"UpTee;", [226, 138, 165]), (b!"UpTeeArrow;", [226, 134, 165]), (b!"upuparrows;", [226, 135, 136]),
   (b!"urcorn;", [226, 140, 157]), (b!"urcorner;", [226, 140, 157]), (b!"urcrop;", [226, 140, 142]),
   (b!"Uring;", [197, 174]), (b!"uring;", [197, 175]), (b!"urtri;", [226, 151, 185]),
   (b!"utdot;", [226, 139, 176]), (b!"Utilde;", [197, 168]), (b!"utilde;", [197, 169]),
   (b!"utri;", [226, 150, 181]), (b!"utrif;", [226, 150, 180]), (b!"uuarr;", [226, 135, 136]),
   (b!"Uuml;", [195, 156]), (b!"Uuml", [195, 156]), (b!"uuml;", [195, 188]), (b!"uuml", [195, 188]),
   (b!"uwangle;", [226, 166, 167]), (b!"vangrt;", [226, 166, 156]), (b!"varepsilon;", [207, 181]),
   (b!"varkappa;", [207, 176]), (b!"varnothing;", [226, 136, 133]), (b!"varphi;", [207, 149]),
   (b!"varpi;", [207, 150]), (b!"varpropto;", [226, 136, 157]), (b!"vArr;", [226, 135, 149]),
   (b!"varr;", [226, 134, 149]), (b!"varrho;", [207, 177]), (b!"varsigma;", [207, 130]),
   (b!"varsubsetneq;", [226, 138, 138, 239, 184, 128]), (b!"varsubsetneqq;", [226, 171, 139, 239, 184, 128]),
   (b!"varsupsetneq;", [226, 138, 139, 239, 184, 128]), (b!"varsupsetneqq;", [226, 171, 140, 239, 184, 128]),
   (b!"vartheta;", [207, 145]), (b!"vartriangleleft;", [226, 138, 178]), (b!"vartriangleright;", [226, 138, 179]),
   (b!"Vbar;", [226, 171, 171]), (b!"vBar;", [226, 171, 168]), (b!"vBarv;", [226, 171, 169]),
   (b!"Vcy;", [208, 146]), (b!"vcy;", [208, 178]), (b!"VDash;", [226, 138, 171]), (b!"Vdash;", [226, 138, 169]),
   (b!"vDash;", [226, 138, 168]), (b!"vdash;", [226, 138, 162])]

/-- html_entities.rs 2115-2238. -/
def refs20 : HMap Str :=
  [(b!"Vdashl;", [226, 171, 166]), (b!"Vee;", [226, 139, 129]), (b!"vee;", [226, 136, 168]),
   (b!"veebar;", [226, 138, 187]), (b!"veeeq;", [226, 137, 154]), (b!"vellip;", [226, 139, 174]),
   (b!"Verbar;", [226, 128, 150]), (b!"verbar;", [124]), (b!"Vert;", [226, 128, 150]), (b!"vert;", [124]),
   (b!"VerticalBar;", [226, 136, 163]), (b!"VerticalLine;", [124]), (b!"VerticalSeparator;", [226, 157, 152]),
   (b!"VerticalTilde;", [226, 137, 128]), (b!"VeryThinSpace;", [226, 128, 138]), (b!"vltri;", [226, 138, 178]),
   (b!"vnsub;", [226, 138, 130, 226, 131, 146]), (b!"vnsup;", [226, 138, 131, 226, 131, 146]),
   (b!"vprop;", [226, 136, 157]), (b!"vrtri;", [226, 138, 179]), (b!"vsubnE;", [226, 171, 139, 239, 184, 128]),
   (b!"vsubne;", [226, 138, 138, 239, 184, 128]), (b!"vsupnE;", [226, 171, 140, 239, 184, 128]),
   (b!"vsupne;", [226, 138, 139, 239, 184, 128]), (b!"Vvdash;", [226, 138, 170]), (b!"vzigzag;", [226, 166, 154]),
   (b!"Wcirc;", [197, 180]), (b!"wcirc;", [197, 181]), (b!"wedbar;", [226, 169, 159]),
   (b!"Wedge;", [226, 139, 128]), (b!"wedge;", [226, 136, 167]), (b!"wedgeq;", [226, 137, 153]),
   (b!"weierp;", [226, 132, 152]), (b!"wp;", [226, 132, 152]), (b!"wr;", [226, 137, 128]),
   (b!"wreath;", [226, 137, 128]), (b!"xcap;", [226, 139, 130]), (b!"xcirc;", [226, 151, 175]),
   (b!"xcup;", [226, 139, 131]), (b!"xdtri;", [226, 150, 189]), (b!"xhArr;", [226, 159, 186]),
   (b!"xharr;", [226, 159, 183]), (b!"Xi;", [206, 158]), (b!"xi;", [206, 190]), (b!"xlArr;", [226, 159, 184]),
   (b!"xlarr;", [226, 159, 181]), (b!"xmap;", [226, 159, 188]), (b!"xnis;", [226, 139, 187]),
   (b!"xodot;", [226, 168, 128]), (b!"xoplus;", [226, 168, 129]), (b!"xotime;", [226, 168, 130]),
   (b!"xrArr;", [226, 159, 185]), (b!"xrarr;", [226, 159, 182]), (b!"xsqcup;", [226, 168, 134]),
   (b!"xuplus;", [226, 168, 132]), (b!"xutri;", [226, 150, 179]), (b!"xvee;", [226, 139, 129]),
   (b!"xwedge;", [226, 139, 128]), (b!"Yacute;", [195, 157]), (b!"Yacute", [195, 157]), (b!"yacute;", [195, 189]),
   (b!"yacute", [195, 189]), (b!"YAcy;", [208, 175]), (b!"yacy;", [209, 143]), (b!"Ycirc;", [197, 182]),
   (b!"ycirc;", [197, 183]), (b!"Ycy;", [208, 171]), (b!"ycy;", [209, 139]), (b!"yen;", [194, 165]),
   (b!"yen", [194, 165]), (b!"YIcy;", [208, 135]), (b!"yicy;", [209, 151]), (b!"YUcy;", [208, 174]),
   (b!"yucy;", [209, 142]), (b!"Yuml;", [197, 184]), (b!"yuml;", [195, 191]), (b!"yuml", [195, 191]),
   (b!"Zacute;", [197, 185]), (b!"zacute;", [197, 186]), (b!"Zcaron;", [197, 189]), (b!"zcaron;", [197, 190]),
   (b!"Zcy;", [208, 151]), (b!"zcy;", [208, 183]), (b!"Zdot;", [197, 187]), (b!"zdot;", [197, 188]),
   (b!"zeetrf;", [226, 132, 168]), (b!"ZeroWidthSpace;", [226, 128, 139]), (b!"Zeta;", [206, 150]),
   (b!"zeta;", [206, 182]), (b!"Zfr;", [226, 132, 168]), (b!"ZHcy;", [208, 150]), (b!"zhcy;", [208, 182]),
   (b!"zigrarr;", [226, 135, 157]), (b!"Zopf;", [226, 132, 164]), (b!"zwj;", [226, 128, 141]),
   (b!"zwnj;", [226, 128, 140])]

end Html.Builtin

namespace Html
open Builtin

/-- `ENTITIES`, html_entities.rs 8-2239.  A `HashMap` has no order: statements are about every rearrangement of
this list. -/
def builtinEntities : HMap Str :=
  refs0 ++ refs1 ++ refs2 ++ refs3 ++ refs4 ++ refs5 ++ refs6 ++ refs7 ++ refs8 ++ refs9 ++ refs10 ++ refs11 ++
  refs12 ++ refs13 ++ refs14 ++ refs15 ++ refs16 ++ refs17 ++ refs18 ++ refs19 ++ refs20

end Html
