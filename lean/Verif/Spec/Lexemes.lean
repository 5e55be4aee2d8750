import Verif.Spec.Marks
import Verif.Spec.Unicode
import Verif.Spec.EmitEvents

/-!
# The lexical rules

What the text of a scalar, an anchor, a tag or a directive denotes, independent of the scanner. Each relation speaks about a text `cs` that
begins with the lexeme and about the text `rest` behind it, because where a lexeme ends depends on what follows it. The text of an input ends
with a NUL character. Columns are given where a rule depends on them.
-/

namespace LibYaml.Spec

/-! ### Characters -/

/-- Space or tab. -/
def Blank (c : Nat) : Prop := c = 0x20 ∨ c = 0x9

/-- LF, CR, NEL, LS, PS. -/
def Brk (c : Nat) : Prop := c ∈ [0xA, 0xD, 0x85, 0x2028, 0x2029]

/-- Space, tab, line break, or the end of the input. -/
def White (c : Nat) : Prop := Blank c ∨ Brk c ∨ c = 0

/-- The text begins with such a character. -/
def Heads (p : Nat → Prop) (cs : List Nat) : Prop := ∃ c r, cs = c :: r ∧ p c

/-- `, [ ] { }` -/
def FlowMark (c : Nat) : Prop := c ∈ [0x2C, 0x5B, 0x5D, 0x7B, 0x7D]

/-- A line break at the beginning of `cs` that denotes `b`: CR LF, CR, LF and NEL denote LF; LS and PS themselves. -/
inductive BreakAt : List Nat → Nat → List Nat → Prop
  | crlf (r) : BreakAt (0xD :: 0xA :: r) 0xA r
  | cr (d r) : d ≠ 0xA → BreakAt (0xD :: d :: r) 0xA (d :: r)
  | lf (r) : BreakAt (0xA :: r) 0xA r
  | nel (r) : BreakAt (0x85 :: r) 0xA r
  | ls (r) : BreakAt (0x2028 :: r) 0x2028 r
  | ps (r) : BreakAt (0x2029 :: r) 0x2029 r

/-- `---` or `...` followed by white space, in column 0. -/
def DocAt (col : Nat) (cs : List Nat) : Prop :=
  col = 0 ∧ ∃ d r, White d ∧ (cs = 0x2D :: 0x2D :: 0x2D :: d :: r ∨ cs = 0x2E :: 0x2E :: 0x2E :: d :: r)

/-! ### White space in scalars -/

/-- Blanks and line breaks up to the next character that is neither; `bs` are the line breaks, `col` and `col'` the columns before and
after. A blank `c` is admitted in column `k` if `ok k c`. -/
inductive Lines (ok : Nat → Nat → Prop) : Nat → List Nat → List Nat → List Nat → Nat → Prop
  | done (col c r) : ¬ Blank c → ¬ Brk c → Lines ok col (c :: r) [] (c :: r) col
  | blank {col c cs bs rest col'} : Blank c → ok col c → Lines ok (col + 1) cs bs rest col' → Lines ok col (c :: cs) bs rest col'
  | break {col cs b cs' bs rest col'} : BreakAt cs b cs' → Lines ok 0 cs' bs rest col' → Lines ok col cs (b :: bs) rest col'

/-- Folding: a single generic line break is a space; otherwise the first one is dropped. LS and PS are never dropped. -/
def fold : List Nat → List Nat
  | [] => []
  | b :: bs => if b = 0xA then (if bs = [] then [0x20] else bs) else b :: bs

/-- White space between two parts of a scalar, and what it denotes: blanks on one line stand for themselves, line breaks are folded and the
blanks around them dropped. The flag says whether there is a line break. -/
inductive Space (ok : Nat → Nat → Prop) : Nat → List Nat → List Nat → List Nat → Nat → Bool → Prop
  | inline (col ws c r) : ws ≠ [] → (∀ x ∈ ws, Blank x) → ¬ Blank c → ¬ Brk c →
      Space ok col (ws ++ c :: r) ws (c :: r) (col + ws.length) false
  | lines (col ws) {cs b cs' bs rest col'} : (∀ x ∈ ws, Blank x) → BreakAt cs b cs' → Lines ok 0 cs' bs rest col' →
      Space ok col (ws ++ cs) (fold (b :: bs)) rest col' true

/-! ### Quoted scalars -/

/-- The escapes with a fixed meaning (YAML 1.1, section 5.6, and `\/`). -/
def escapes : List (Char × Nat) :=
  [('0', 0x0), ('a', 0x7), ('b', 0x8), ('t', 0x9), ('\t', 0x9), ('n', 0xA), ('v', 0xB), ('f', 0xC), ('r', 0xD), ('e', 0x1B), (' ', 0x20),
   ('"', 0x22), ('/', 0x2F), ('\\', 0x5C), ('N', 0x85), ('_', 0xA0), ('L', 0x2028), ('P', 0x2029)]

/-- The numeric escapes and their numbers of digits. -/
def codes : List (Char × Nat) := [('x', 2), ('u', 4), ('U', 8)]

/-- The value of a hexadecimal digit. -/
inductive Hex : Nat → Nat → Prop
  | digit (d) : d < 10 → Hex (0x30 + d) d
  | upper (d) : d < 6 → Hex (0x41 + d) (10 + d)
  | lower (d) : d < 6 → Hex (0x61 + d) (10 + d)

/-- The value of hexadecimal digits. -/
inductive HexNum : Nat → List Nat → Nat → Prop
  | nil (v) : HexNum v [] v
  | cons {v c d cs w} : Hex c d → HexNum (v * 16 + d) cs w → HexNum v (c :: cs) w

/-- The text `src` between quotes denotes the character `v`. -/
inductive QChar : Bool → List Nat → Nat → Prop
  | self (single c) : ¬ White c → (if single = true then c ≠ 0x27 else c ≠ 0x22 ∧ c ≠ 0x5C) → QChar single [c] c
  | quote : QChar true [0x27, 0x27] 0x27
  | escape (c : Char) (v : Nat) : (c, v) ∈ escapes → QChar false [0x5C, c.toNat] v
  | code (c : Char) (n v : Nat) (ds : List Nat) : (c, n) ∈ codes → ds.length = n → HexNum 0 ds v → v ≤ 0x10FFFF → ¬ (0xD800 ≤ v ∧ v ≤ 0xDFFF) →
      QChar false (0x5C :: c.toNat :: ds) v

/-- The content of a quoted scalar, which starts in column `col`, and the closing quote; then comes `rest`. -/
inductive Quoted (single : Bool) : Nat → List Nat → List Nat → List Nat → Prop
  | close (col r) : (single = true → Heads (· ≠ 0x27) r) → Quoted single col ((if single = true then 0x27 else 0x22) :: r) [] r
  | char {col src c cs v rest} : QChar single src c → ¬ DocAt col (src ++ cs) → Quoted single (col + src.length) cs v rest →
      Quoted single col (src ++ cs) (c :: v) rest
  | white {col cs w cs' col' line v rest} : Space (fun _ _ => True) col cs w cs' col' line → Quoted single col' cs' v rest →
      Quoted single col cs (w ++ v) rest
  /-- An escaped line break is dropped, with the blanks behind it; further line breaks stand for themselves. -/
  | joined {col cs b cs' bs cs'' col' v rest} : single = false → BreakAt cs b cs' → Lines (fun _ _ => True) 0 cs' bs cs'' col' →
      Quoted single col' cs'' v rest → Quoted single col (0x5C :: cs) (bs ++ v) rest

/-! ### Plain scalars -/

/-- The first character of the text may stand in a plain scalar. A colon may if no white space follows; in the flow context indicators may not,
and a colon may not be followed by one. -/
def PlainChar (flow : Bool) (cs : List Nat) : Prop :=
  ∃ c r, cs = c :: r ∧ ¬ White c ∧ (flow = true → ¬ FlowMark c) ∧
    (c = 0x3A → ∃ d r', r = d :: r' ∧ ¬ White d ∧ (flow = true → ¬ FlowMark d ∧ d ≠ 0x3F))

/-- A plain scalar ends in front of this text: at the end of the input, at a colon with white space, at an indicator of the flow context. -/
def PlainStops (flow : Bool) (cs : List Nat) : Prop :=
  (∃ r, cs = 0 :: r) ∨ (∃ d r, cs = 0x3A :: d :: r ∧ White d) ∨ (flow = true ∧ Heads FlowMark cs)

/-- After white space a plain scalar ends also at a comment, at a document indicator, and, in the block context, if the indentation is less
than `indent`. -/
def PlainOver (flow : Bool) (indent : Int) (col : Nat) (cs : List Nat) : Prop :=
  (flow = false ∧ (col : Int) < indent) ∨ DocAt col cs ∨ (∃ r, cs = 0x23 :: r) ∨ PlainStops flow cs

/-- A plain scalar that starts in column `col`, its value, the text behind it and behind the white space that follows, and whether there is a
line break in this white space. A tab may not be used for the indentation of a line. -/
inductive Plain (flow : Bool) (indent : Int) : Nat → List Nat → List Nat → List Nat → Bool → Prop
  | stop (col cs) : PlainStops flow cs → Plain flow indent col cs [] cs false
  | char {col c cs v rest line} : PlainChar flow (c :: cs) → Plain flow indent (col + 1) cs v rest line →
      Plain flow indent col (c :: cs) (c :: v) rest line
  | over {col cs w rest col' line} : Space (fun k c => ¬ (c = 0x9 ∧ (k : Int) < indent)) col cs w rest col' line →
      PlainOver flow indent col' rest → Plain flow indent col cs [] rest line
  | white {col cs w cs' col' line v rest line'} : Space (fun k c => ¬ (c = 0x9 ∧ (k : Int) < indent)) col cs w cs' col' line →
      ¬ PlainOver flow indent col' cs' → Plain flow indent col' cs' v rest line' → Plain flow indent col cs (w ++ v) rest line'

/-! ### Block scalars -/

/-- What happens to the line breaks at the end. -/
inductive Chomping | strip | clip | keep
  deriving DecidableEq

/-- A chomping indicator. -/
inductive ChompMark : Nat → Chomping → Prop
  | strip : ChompMark 0x2D .strip
  | keep : ChompMark 0x2B .keep

/-- An indentation indicator, 1 to 9. -/
inductive IndentMark : Nat → Nat → Prop
  | mk (n) : 1 ≤ n → n ≤ 9 → IndentMark (0x30 + n) n

/-- The indicators of a block scalar, in any order; the increment is 0 if none is given. -/
inductive Header : List Nat → Chomping → Nat → List Nat → Prop
  | none (c r) : (∀ x, ¬ ChompMark c x) → ¬ (0x30 ≤ c ∧ c ≤ 0x39) → Header (c :: r) .clip 0 (c :: r)
  | chomp {a x} (c r) : ChompMark a x → ¬ (0x30 ≤ c ∧ c ≤ 0x39) → Header (a :: c :: r) x 0 (c :: r)
  | indent {a n} (c r) : IndentMark a n → (∀ x, ¬ ChompMark c x) → Header (a :: c :: r) .clip n (c :: r)
  | both {a b x n} (r) : ChompMark a x → IndentMark b n → Header (a :: b :: r) x n r
  | both' {a b x n} (r) : IndentMark b n → ChompMark a x → Header (b :: a :: r) x n r

/-- Blanks, a comment, and the end of the line; then comes `rest`, in column 0 unless the input ends. -/
inductive LineEnd : List Nat → List Nat → Bool → Prop
  | break (ws com) {cs b rest} : (∀ x ∈ ws, Blank x) → (com = [] ∨ Heads (· = 0x23) com) → (∀ x ∈ com, ¬ Brk x ∧ x ≠ 0) → BreakAt cs b rest →
      LineEnd (ws ++ (com ++ cs)) rest false
  | eof (ws com r) : (∀ x ∈ ws, Blank x) → (com = [] ∨ Heads (· = 0x23) com) → (∀ x ∈ com, ¬ Brk x ∧ x ≠ 0) →
      LineEnd (ws ++ (com ++ 0 :: r)) (0 :: r) true

/-- Lines that are empty up to the indentation. `n` is the indentation, 0 if it is still to be found. `bs` are the line breaks, `mx` the
greatest number of spaces seen, `col` the column of `rest`. A tab may not take the place of indentation. -/
inductive Empties (n : Nat) : List Nat → List Nat → Nat → List Nat → Nat → Prop
  | last (k c r) : ¬ Brk c → (n = 0 ∨ k < n → ¬ Blank c) → (n = 0 ∨ k ≤ n) → Empties n (List.replicate k 0x20 ++ c :: r) [] k (c :: r) k
  | line (k) {cs b cs' bs mx rest col} : BreakAt cs b cs' → (n = 0 ∨ k ≤ n) → Empties n cs' bs mx rest col →
      Empties n (List.replicate k 0x20 ++ cs) (b :: bs) (max k mx) rest col

/-- A line of a block scalar: its text behind the indentation, and the line breaks behind it. -/
structure BlockLine where
  text : List Nat
  breaks : List Nat

/-- The lines of a block scalar with indentation `n`, from a position behind `col` spaces. The scalar ends in front of `mid`, which is `rest` with the spaces
in front of it. -/
inductive BlockText (n : Nat) : Nat → List Nat → List BlockLine → List Nat → List Nat → Prop
  | over (col cs) : Heads (fun c => col ≠ n ∨ c = 0) cs → BlockText n col cs [] (List.replicate col 0x20 ++ cs) cs
  | last (text r) : text ≠ [] → (∀ x ∈ text, ¬ Brk x ∧ x ≠ 0) → BlockText n n (text ++ 0 :: r) [⟨text, []⟩] (0 :: r) (0 :: r)
  | line (text) {cs b cs' bs mx cs'' col ls mid rest} : text ≠ [] → (∀ x ∈ text, ¬ Brk x ∧ x ≠ 0) → BreakAt cs b cs' →
      Empties n cs' bs mx cs'' col → BlockText n col cs'' ls mid rest → BlockText n n (text ++ cs) (⟨text, b :: bs⟩ :: ls) mid rest

/-- Does the line start with a blank? -/
def BlockLine.spaced (l : BlockLine) : Prop := Heads Blank l.text

/-- The line breaks between two lines: in a folded scalar they are folded unless one of the lines starts with a blank. -/
inductive Between2 (literal : Bool) (l l' : BlockLine) : List Nat → Prop
  | kept : literal = true ∨ l.spaced ∨ l'.spaced → Between2 literal l l' l.breaks
  | folded : literal = false → ¬ l.spaced → ¬ l'.spaced → Between2 literal l l' (fold l.breaks)

/-- The lines denote this text with these line breaks at the end. -/
inductive Joined (literal : Bool) : List BlockLine → List Nat → List Nat → Prop
  | nil : Joined literal [] [] []
  | one (l) : Joined literal [l] l.text l.breaks
  | cons {l l' ls w v t} : Between2 literal l l' w → Joined literal (l' :: ls) v t → Joined literal (l :: l' :: ls) (l.text ++ (w ++ v)) t

/-- What is kept of the line breaks at the end: none, the one that ends the last line, or all. -/
def chomped (x : Chomping) (t : List Nat) : List Nat :=
  match x with
  | .strip => []
  | .clip => t.take 1
  | .keep => t

/-- A block scalar behind its first indicator, in a block with indentation `parent`, and its value. The indentation is given relative to the parent or found as the greatest number of leading spaces up to the first line with text. If there
are no lines with text the empty lines count as the end. The scalar ends in front of `mid`: spaces at the beginning of the next line are read, but are
not part of it. -/
inductive BlockScalar (literal : Bool) (parent : Int) : List Nat → List Nat → List Nat → List Nat → Prop
  /-- nothing but the header, up to the end of the input -/
  | eof {cs x n cs1 r} : Header cs x n cs1 → LineEnd cs1 (0 :: r) true → BlockScalar literal parent cs [] (0 :: r) (0 :: r)
  | lines {cs x n cs1 cs2 bs mx cs3 col ls mid rest v t} (k : Nat) : Header cs x n cs1 → LineEnd cs1 cs2 false →
      Empties (if n = 0 then 0 else (max parent 0).toNat + n) cs2 bs mx cs3 col →
      k = (if n = 0 then max (max mx 1) (parent + 1).toNat else (max parent 0).toNat + n) →
      BlockText k col cs3 ls mid rest → Joined literal ls v t →
      BlockScalar literal parent cs (if ls = [] then (if x = .keep then bs else []) else bs ++ (v ++ chomped x t)) mid rest

/-! ### Anchors and tags -/

/-- An anchor or alias behind its indicator. -/
def AnchorName (cs v rest : List Nat) : Prop :=
  cs = v ++ rest ∧ v ≠ [] ∧ (∀ c ∈ v, Word c) ∧ Heads (fun c => ¬ Word c ∧ (White c ∨ c ∈ [0x3F, 0x3A, 0x2C, 0x5D, 0x7D, 0x25, 0x40, 0x60])) rest

/-- The characters of a tag besides `%`; `, [ ]` only if the tag is verbatim or in a directive. -/
def UriChar (full : Bool) (c : Nat) : Prop :=
  Word c ∨ c ∈ [0x3B, 0x2F, 0x3F, 0x3A, 0x40, 0x26, 0x3D, 0x2B, 0x24, 0x2E, 0x21, 0x7E, 0x2A, 0x27, 0x28, 0x29] ∨
    (full = true ∧ c ∈ [0x2C, 0x5B, 0x5D])

/-- Percent escapes of octets. -/
inductive Octets : List Nat → List Nat → Prop
  | nil : Octets [] []
  | cons {a b x y cs os} : Hex a x → Hex b y → Octets cs os → Octets (0x25 :: a :: b :: cs) ((x * 16 + y) :: os)

/-- The octets have the form of one encoded character: the first announces their number. -/
inductive Octet1 : List Nat → Prop
  | one (a) : a < 0x80 → Octet1 [a]
  | more (a n) (os : List Nat) : (n = 1 ∧ 0xC0 ≤ a ∧ a < 0xE0) ∨ (n = 2 ∧ 0xE0 ≤ a ∧ a < 0xF0) ∨ (n = 3 ∧ 0xF0 ≤ a ∧ a < 0xF8) →
      os.length = n → (∀ b ∈ os, 0x80 ≤ b ∧ b < 0xC0) → Octet1 (a :: os)

/-- The number with these digits in base 256. -/
def bigEndian (os : List Nat) : Nat := os.foldl (fun v o => v * 0x100 + o) 0

/-- The number whose encoding these octets are. If there is none, the octets are kept in a larger number. -/
inductive OctetValue (os : List Nat) : Nat → Prop
  | char (c) : c < 0x200000 → (utf8 c).map UInt8.toNat = os → OctetValue os c
  | raw : (∀ c, c < 0x200000 → (utf8 c).map UInt8.toNat ≠ os) → OctetValue os (0x200000 + bigEndian os)

/-- The characters of a tag, as many as there are. -/
inductive Uri (full : Bool) : List Nat → List Nat → List Nat → Prop
  | done (cs) : Heads (fun c => ¬ UriChar full c ∧ c ≠ 0x25) cs → Uri full cs [] cs
  | char {c cs v rest} : UriChar full c → Uri full cs v rest → Uri full (c :: cs) (c :: v) rest
  | escape {src os u cs v rest} : Octets src os → Octet1 os → OctetValue os u → Uri full cs v rest → Uri full (src ++ cs) (u :: v) rest

/-- A string ends at the first NUL. -/
def upToNul (v : List Nat) : List Nat := v.takeWhile (· ≠ 0)

/-- A tag, with its handle and suffix. -/
inductive TagText : List Nat → List Nat → List Nat → List Nat → Prop
  | verbatim {cs v rest} : v ≠ [] → Uri true cs v (0x3E :: rest) → TagText (0x21 :: 0x3C :: cs) [] (upToNul v) rest
  | named (w) {cs v rest} : (∀ c ∈ w, Word c) → v ≠ [] → Uri false cs v rest →
      TagText (0x21 :: (w ++ 0x21 :: cs)) (0x21 :: (w ++ [0x21])) (upToNul v) rest
  | primary (w) {cs v rest} : (∀ c ∈ w, Word c) → Heads (fun c => ¬ Word c ∧ c ≠ 0x21) cs → (w = [] → ¬ Heads (· = 0x3C) cs) → Uri false cs v rest →
      upToNul (w ++ v) ≠ [] → TagText (0x21 :: (w ++ cs)) [0x21] (upToNul (w ++ v)) rest
  | bare (w) {cs v rest} : (∀ c ∈ w, Word c) → Heads (fun c => ¬ Word c ∧ c ≠ 0x21) cs → (w = [] → ¬ Heads (· = 0x3C) cs) → Uri false cs v rest →
      upToNul (w ++ v) = [] → TagText (0x21 :: (w ++ cs)) [] [0x21] rest

/-- A tag and what may follow it. -/
def TagAt (flow : Bool) (cs handle suffix rest : List Nat) : Prop :=
  TagText cs handle suffix rest ∧ Heads (fun c => White c ∨ (flow = true ∧ c = 0x2C)) rest

/-! ### Directives -/

/-- The value of decimal digits. -/
inductive Decimal : Nat → List Nat → Nat → Prop
  | nil (v) : Decimal v [] v
  | cons {v d cs w} : d < 10 → Decimal (v * 10 + d) cs w → Decimal v ((0x30 + d) :: cs) w

/-- A number of one to nine digits. -/
def Number (ds : List Nat) (v : Nat) : Prop := Decimal 0 ds v ∧ 1 ≤ ds.length ∧ ds.length ≤ 9

/-- `%YAML` with a version, behind the percent sign. The directive ends in front of `mid`, and the line in front of `rest`. -/
inductive VersionAt : List Nat → Nat → Nat → List Nat → List Nat → Prop
  | mk (ws a b) {major minor mid rest eof} : ws ≠ [] → (∀ x ∈ ws, Blank x) → Number a major → Number b minor →
      Heads (fun c => ¬ (0x30 ≤ c ∧ c ≤ 0x39)) mid → LineEnd mid rest eof →
      VersionAt (0x59 :: 0x41 :: 0x4D :: 0x4C :: (ws ++ (a ++ 0x2E :: (b ++ mid)))) major minor mid rest

/-- `%TAG` with a handle and a prefix, behind the percent sign. -/
inductive TagDirAt : List Nat → List Nat → List Nat → List Nat → List Nat → Prop
  | mk (ws h ws') {cs v mid rest eof} : ws ≠ [] → (∀ x ∈ ws, Blank x) → Handle h → ws' ≠ [] → (∀ x ∈ ws', Blank x) →
      Heads (fun c => ¬ Blank c) cs → v ≠ [] → Uri true cs v mid → Heads White mid → LineEnd mid rest eof →
      TagDirAt (0x54 :: 0x41 :: 0x47 :: (ws ++ (h ++ (ws' ++ cs)))) h (upToNul v) mid rest

/-! ### Between tokens -/

/-- One line of white space: a byte order mark at its beginning, blanks, a comment. Tabs are admitted in the flow context, and where no implicit key may start. -/
inductive Margin (tabs : Bool) (col : Nat) : List Nat → List Nat → Prop
  | mk (bom ws com cs) : (bom = [] ∨ (col = 0 ∧ bom = [0xFEFF])) → (bom = [] → col = 0 → ¬ Heads (· = 0xFEFF) (ws ++ (com ++ cs))) →
      (∀ x ∈ ws, x = 0x20 ∨ (tabs = true ∧ x = 0x9)) →
      ((com = [] ∧ Heads (fun c => c ≠ 0x20 ∧ (tabs = true → c ≠ 0x9) ∧ c ≠ 0x23) cs) ∨ Heads (· = 0x23) com ∧ (∀ x ∈ com, ¬ Brk x ∧ x ≠ 0) ∧ Heads (fun c => Brk c ∨ c = 0) cs) →
      Margin tabs col (bom ++ (ws ++ (com ++ cs))) cs

/-- White space and comments up to the next token. `key` says whether an implicit key may start; a line break makes it possible in the block context. -/
inductive Filler (flow : Bool) : Bool → Nat → List Nat → Bool → List Nat → Prop
  | last {key col cs rest} : Margin (flow || !key) col cs rest → Heads (fun c => ¬ Brk c) rest → Filler flow key col cs key rest
  | next {key col cs cs' b cs'' key' rest} : Margin (flow || !key) col cs cs' → BreakAt cs' b cs'' → Filler flow (key || !flow) 0 cs'' key' rest →
      Filler flow key col cs key' rest

end LibYaml.Spec
