import Verif.Proofs.LexQuoted
import Verif.Proofs.ScannerHeapTags

/-!
# The scanner on the heap: scalars
-/

namespace LibYaml

open Spec

set_option linter.unusedSectionVars false

variable {α α' β β' : Type} {o : Oracle} {A : Prop} {base : Nat → Option Obj} {D : List Reg} {V : RV} {c keep : Blocks}

/-- The second string is copied to the end of the first; what is in it then does not matter. -/
theorem lr_sJoin {r q : Reg} {s t : Text} (hr : r ∈ D) (hq : q ∈ D) (hrq : q ≠ r) (hv : V.get r = B s) (hw : V.get q = B t) :
    LRel o A base D V c c (sJoin r q) (pure () : Lex Unit) (fun _ _ W d => (∃ w, w ≠ .null ∧ W = (V.set r (B (s ++ t))).set q w) ∧ c = d) := by
  unfold sJoin
  refine xr_do (lr_sLen hq hw) ?_
  rintro _ _ _ ⟨rfl, rfl, rfl⟩
  by_cases ht : t = []
  · rw [if_pos (textBytes_empty.mpr ht)]
    subst ht
    exact xr_pure ⟨⟨B [], nofun, by rw [List.append_nil, ← hv, RV.set_get, ← hw, RV.set_get]⟩, rfl⟩
  · rw [if_neg (fun h => ht (textBytes_empty.mp h))]
    refine xr_do (lr_sGrow hr hv (by omega) (by omega)) ?_
    rintro _ _ _ ⟨rfl, rfl⟩
    have hw2 : ∀ v, (V.set r v).get q = B t := fun v => by rw [RV.get_set, if_neg hrq, hw]
    refine xr_do (lr_sBytes hq (hw2 _)) ?_
    rintro _ _ _ ⟨rfl, rfl, rfl⟩
    refine xr_do (lr_sStore 0 hr (RV.get_same ..) (by simp)) ?_
    rintro _ _ _ ⟨rfl, rfl⟩
    rw [RV.set_set]
    refine xr_post (lr_rewind hq (hw2 _)) ?_
    rintro _ _ _ _ ⟨rfl, rfl⟩
    exact ⟨⟨.stale, nofun, by rw [B, textBytes_append]⟩, rfl⟩

theorem brk_zero {l : Text} (h : Brks l) : ((textBytes l ++ [0])[0]'(by simp) == 0) = l.isEmpty := by
  cases l with
  | nil => rfl
  | cons x t =>
    rcases h x List.mem_cons_self with rfl | rfl | rfl
    · have : textBytes (0xA :: t) = [0xA] ++ textBytes t := rfl
      simp only [this]
      rfl
    · have : textBytes (0x2028 :: t) = [0xE2, 0x80, 0xA8] ++ textBytes t := rfl
      simp only [this]
      rfl
    · have : textBytes (0x2029 :: t) = [0xE2, 0x80, 0xA9] ++ textBytes t := rfl
      simp only [this]
      rfl

theorem brk_lf {l : Text} (h : Brks l) : ((textBytes l ++ [0])[0]'(by simp) == 0xA) = (l.head? == some 0xA) := by
  cases l with
  | nil => rfl
  | cons x t =>
    rcases h x List.mem_cons_self with rfl | rfl | rfl
    · have : textBytes (0xA :: t) = [0xA] ++ textBytes t := rfl
      simp only [this]
      rfl
    · have : textBytes (0x2028 :: t) = [0xE2, 0x80, 0xA8] ++ textBytes t := rfl
      simp only [this]
      rfl
    · have : textBytes (0x2029 :: t) = [0xE2, 0x80, 0xA9] ++ textBytes t := rfl
      simp only [this]
      rfl

theorem b_space (s : Text) : B (s ++ [0x20]) = .bytes (textBytes s ++ [0x20]) 0 := by
  rw [B, textBytes_append]
  rfl

/-! ### Block scalars -/

theorem lr_col {k : Nat → HL β'} {y : Mark → Lex α'} {Q : β' → α' → RV → Blocks → Prop} (h : ∀ a : Mark, LRel o A base D V c keep (k a.column) (y a) Q) :
    LRel o A base D V c keep ((xget fun x => x.mark.column) >>= k) (get >>= y) Q := lr_get (f := Mark.column) h

theorem lr_breaksLoop {f n mi : Nat} {start stop : Mark} {indent : Int} {t : Text} (hr : Reg.trail ∈ D) (hv : V.get .trail = B t) (ht : Brks t) :
    LRel o A base D V c c (hBreaksLoop o f start indent n mi stop) (blockBreaksLoop f start indent n mi t stop)
      (fun v a W d => v = (a.1, a.2.2) ∧ Brks a.2.1 ∧ W = V.set .trail (B a.2.1) ∧ c = d) := by
  induction n generalizing V mi t stop with
  | zero => exact xr_fuel
  | succ n ih =>
    unfold hBreaksLoop blockBreaksLoop
    refine lr_in fun _ => lr_in fun _ => lr_col fun m => lr_in fun ch => xr_ite (fun _ => lr_err) (fun _ => xr_ite (fun _ => ?_) (fun _ => ?_))
    · refine lr_in fun _ => ?_
      refine xr_bind (lr_readLine hr hv) ?_
      rintro _ _ _ _ ⟨⟨u, rfl, hu⟩, rfl, rfl⟩
      refine lr_now fun stop => ?_
      refine xr_post (ih (RV.get_same ..) (ht.append hu)) ?_
      rintro _ _ _ _ ⟨h1, h2, rfl, rfl⟩
      exact ⟨h1, h2, RV.set_set .., rfl⟩
    · exact xr_pure ⟨rfl, ht, by rw [← hv, RV.set_get], rfl⟩

theorem lr_breaks {f : Nat} {start : Mark} {pi indent : Int} {t : Text} (hr : Reg.trail ∈ D) (hv : V.get .trail = B t) (ht : Brks t) :
    LRel o A base D V c c (hBreaks o f start pi indent) (blockBreaks f start pi indent t)
      (fun v a W d => v = (a.1, a.2.2) ∧ Brks a.2.1 ∧ W = V.set .trail (B a.2.1) ∧ c = d) := by
  unfold hBreaks blockBreaks
  refine lr_now fun m => ?_
  refine xr_bind (lr_breaksLoop hr hv ht) ?_
  rintro _ ⟨a, b, e⟩ _ _ ⟨rfl, h2, rfl, rfl⟩
  exact xr_pure ⟨rfl, h2, rfl, rfl⟩

theorem lr_blockJoin {lit lb tb : Bool} {s l t : Text} (hl : Brks l) (ht : Brks t) :
    LRel o A base [.str, .lead, .trail] ⟨B s, B l, B t, .null⟩ c c (hBlockJoin lit lb tb) (pure () : Lex Unit)
      (fun _ _ W d => W = ⟨B (blockJoin lit lb tb s l t), B [], B [], .null⟩ ∧ c = d) := by
  unfold hBlockJoin blockJoin
  refine xr_do (lr_sByte (r := .lead) (t := textBytes l) (n := 0) (j := 0) (by omega) (by simp) rfl) ?_
  rintro _ _ _ ⟨rfl, rfl, rfl⟩
  rw [brk_lf hl]
  by_cases hc : (!lit && l.head? == some 0xA && !lb && !tb) = true
  · rw [if_pos hc, if_pos hc]
    refine xr_do (lr_sByte (r := .trail) (t := textBytes t) (n := 0) (j := 0) (by omega) (by simp) rfl) ?_
    rintro _ _ _ ⟨rfl, rfl, rfl⟩
    rw [brk_zero ht]
    have hif : LRel o A base [.str, .lead, .trail] ⟨B s, B l, B t, .null⟩ c c
        (if t.isEmpty then do sRoom .str; sStore .str [0x20] else return () : HL Unit) (pure () : Lex Unit)
        (fun _ _ W d => W = ⟨B (if t.isEmpty then s ++ [0x20] else s), B l, B t, .null⟩ ∧ c = d) := by
      by_cases he : t.isEmpty = true
      · rw [if_pos he, if_pos he]
        refine xr_do (lr_sRoom (t := textBytes s) (n := 0) (by simp) rfl) ?_
        rintro _ _ _ ⟨rfl, rfl⟩
        refine xr_post (lr_sStore (t := textBytes s) 0 (by simp) rfl (by simp)) ?_
        rintro _ _ _ _ ⟨rfl, rfl⟩
        exact ⟨by rw [b_space]; rfl, rfl⟩
      · rw [if_neg he, if_neg he]
        exact xr_pure ⟨rfl, rfl⟩
    refine xr_do hif ?_
    rintro _ _ _ ⟨rfl, rfl⟩
    refine xr_do (lr_sClear (v := B l) (by simp) rfl nofun) ?_
    rintro _ _ _ ⟨rfl, rfl⟩
    refine xr_do (lr_sJoin (s := if t.isEmpty then s ++ [0x20] else s) (t := t) (by simp) (by simp) (by decide) rfl rfl) ?_
    rintro _ _ _ ⟨⟨w, hw, rfl⟩, rfl⟩
    refine xr_post (lr_sClear (v := w) (by simp) rfl hw) ?_
    rintro _ _ _ _ ⟨rfl, rfl⟩
    exact ⟨rfl, rfl⟩
  · rw [if_neg hc, if_neg hc]
    refine xr_do (lr_sJoin (s := s) (t := l) (by simp) (by simp) (by decide) rfl rfl) ?_
    rintro _ _ _ ⟨⟨w, hw, rfl⟩, rfl⟩
    refine xr_do (lr_sClear (v := w) (by simp) rfl hw) ?_
    rintro _ _ _ ⟨rfl, rfl⟩
    refine xr_do (lr_sJoin (s := s ++ l) (t := t) (by simp) (by simp) (by decide) rfl rfl) ?_
    rintro _ _ _ ⟨⟨w, hw, rfl⟩, rfl⟩
    refine xr_post (lr_sClear (v := w) (by simp) rfl hw) ?_
    rintro _ _ _ _ ⟨rfl, rfl⟩
    exact ⟨rfl, rfl⟩

theorem lr_blockLines {f n : Nat} {start stop : Mark} {pi indent : Int} {lit lb : Bool} {s l t : Text} (hl : Brks l) (ht : Brks t) :
    LRel o A base [.str, .lead, .trail] ⟨B s, B l, B t, .null⟩ c c (hBlockLines o f start pi lit indent n lb stop)
      (blockLines f start pi lit indent n lb s l t stop)
      (fun v a W d => v = a.2.2.2 ∧ W = ⟨B a.1, B a.2.1, B a.2.2.1, .null⟩ ∧ c = d) := by
  induction n generalizing s l t indent lb stop with
  | zero => exact xr_fuel
  | succ n ih =>
    unfold hBlockLines blockLines
    refine lr_col fun m => xr_ite (fun _ => ?_) (fun _ => xr_pure ⟨rfl, rfl, rfl⟩)
    refine lr_in fun ch => xr_ite (fun _ => xr_pure ⟨rfl, rfl, rfl⟩) (fun _ => ?_)
    refine xr_do (lr_blockJoin hl ht) ?_
    rintro _ _ _ ⟨rfl, rfl⟩
    refine xr_bind (lr_readWhile (by simp) rfl) ?_
    rintro _ _ _ _ ⟨⟨u, rfl, _⟩, rfl, rfl⟩
    refine lr_in fun _ => ?_
    refine xr_bind (lr_readLine (r := .lead) (s := []) (n := 0) (by simp) rfl) ?_
    rintro _ _ _ _ ⟨⟨w, rfl, hw⟩, rfl, rfl⟩
    refine xr_bind (lr_breaks (t := []) (by simp) rfl nofun) ?_
    rintro _ ⟨i, b, e⟩ _ _ ⟨rfl, h2, rfl, rfl⟩
    exact ih (by simpa using hw) h2

theorem lr_chomp {ch : Chomp} {s l t : Text} :
    LRel o A base [.str, .lead, .trail] ⟨B s, B l, B t, .null⟩ c c (hChomp ch) (pure () : Lex Unit)
      (fun _ _ W d => (∃ x y, W = ⟨B (chompTail ch s l t), x, y, .null⟩) ∧ c = d) := by
  cases ch
  · exact xr_pure ⟨⟨_, _, rfl⟩, rfl⟩
  · refine xr_post (lr_sJoin (s := s) (t := l) (by simp) (by simp) (by decide) rfl rfl) ?_
    rintro _ _ _ _ ⟨⟨w, hw, rfl⟩, rfl⟩
    exact ⟨⟨_, _, rfl⟩, rfl⟩
  · refine xr_do (lr_sJoin (s := s) (t := l) (by simp) (by simp) (by decide) rfl rfl) ?_
    rintro _ _ _ ⟨⟨w, hw, rfl⟩, rfl⟩
    refine xr_post (lr_sJoin (s := s ++ l) (t := t) (by simp) (by simp) (by decide) rfl rfl) ?_
    rintro _ _ _ _ ⟨⟨w, hw, rfl⟩, rfl⟩
    exact ⟨⟨_, _, rfl⟩, rfl⟩

theorem lr_block {f : Nat} {pi : Int} {lit : Bool} : LRel o A base [] nullV c c (hBlockToken o f pi lit) (scanBlockScalar f pi lit) (QT c) := by
  unfold hBlockToken scanBlockScalar
  refine lr_orDel (by decide) (fun _ _ _ _ h => h.1) ?_
  refine xr_do (lr_sInit (by simp) rfl) ?_
  rintro _ _ _ ⟨rfl, rfl⟩
  refine xr_do (lr_sInit (by simp) rfl) ?_
  rintro _ _ _ ⟨rfl, rfl⟩
  refine xr_do (lr_sInit (by simp) rfl) ?_
  rintro _ _ _ ⟨rfl, rfl⟩
  refine lr_now fun start => lr_in fun _ => lr_in fun ⟨ch, inc⟩ => lr_in fun _ => ?_
  refine xr_bind (lr_breaks (t := []) (by simp) rfl nofun) ?_
  rintro _ ⟨i, b, e⟩ _ _ ⟨rfl, h2, rfl, rfl⟩
  refine lr_in fun _ => ?_
  refine xr_bind (lr_blockLines (s := []) (l := []) (t := b) nofun h2) ?_
  rintro _ ⟨s, l, t, e⟩ _ _ ⟨rfl, rfl, rfl⟩
  refine xr_do lr_chomp ?_
  rintro _ _ _ ⟨⟨x, y, rfl⟩, rfl⟩
  refine xr_do (lr_sDel (by simp) rfl) ?_
  rintro _ _ _ ⟨rfl, rfl⟩
  refine xr_do (lr_sDel (by simp) rfl) ?_
  rintro _ _ _ ⟨rfl, rfl⟩
  refine xr_do (lr_sTake (t := textBytes (chompTail ch s l t)) (n := 0) (by simp) rfl) ?_
  rintro _ _ _ ⟨rfl, p, k, rfl, hk, rfl⟩
  exact xr_pure ⟨rfl, [(p, .bytes (textBytes (chompTail ch s l t) ++ List.replicate k 0))], ⟨p, k, rfl, hk, rfl⟩, rfl, rfl, List.Perm.refl _⟩

/-! ### Quoted scalars -/

theorem octets_short {v : Nat} (h : v < 0x200000) : encodeBuf v = octets v ∧ (octets v).length ≤ 4 := by
  rw [encodeBuf_eq, octets_utf8 h]
  refine ⟨rfl, ?_⟩
  unfold utf8
  split <;> (try split) <;> (try split) <;> simp

theorem lr_escape {start : Mark} {s : Text} (hr : Reg.str ∈ D) (hv : V.get .str = B s) :
    LRel o A base D V c c (hEscape o start) (scanEscape start s) (fun _ a W d => W = V.set .str (B a) ∧ c = d) := by
  unfold hEscape scanEscape
  refine xr_do (lr_sRoom hr hv) ?_
  rintro _ _ _ ⟨rfl, rfl⟩
  refine lr_in fun ch => ?_
  beta_reduce
  cases hs : simpleEscape ch with
  | some v =>
    have hv2 : v < 0x200000 := by
      obtain ⟨e, he, _⟩ := escape_iff.mp hs
      simp [escapes] at he
      omega
    obtain ⟨h1, h2⟩ := octets_short hv2
    refine xr_do (lr_sStore 0 hr (RV.get_same ..) (by rw [h1]; omega)) ?_
    rintro _ _ _ ⟨rfl, rfl⟩
    refine lr_in fun _ => ?_
    refine xr_map lr_hin ?_
    rintro _ _ _ _ ⟨_, rfl, rfl⟩
    exact ⟨by rw [RV.set_set, B, textBytes_append, textBytes_one, h1], rfl⟩
  | none =>
    dsimp only
    cases hc : codeLength ch with
    | none => exact lr_err
    | some len =>
      refine lr_in fun _ => lr_in fun _ => lr_in fun _ => lr_in fun v => xr_ite (fun _ => lr_err) (fun hn => ?_)
      obtain ⟨h1, h2⟩ := octets_short (v := v) (by omega)
      refine xr_do (lr_sStore 0 hr (RV.get_same ..) (by rw [h1]; omega)) ?_
      rintro _ _ _ ⟨rfl, rfl⟩
      refine xr_map lr_hin ?_
      rintro _ _ _ _ ⟨_, rfl, rfl⟩
      exact ⟨by rw [RV.set_set, B, textBytes_append, textBytes_one, h1], rfl⟩

theorem lr_flowChars {f : Nat} {start : Mark} {single : Bool} {s : Text} (hr : Reg.str ∈ D) (hv : V.get .str = B s) :
    LRel o A base D V c c (hFlowChars o start single f) (flowChars start single f s) (fun v a W d => v = a.2 ∧ W = V.set .str (B a.1) ∧ c = d) := by
  induction f generalizing V s with
  | zero => exact xr_fuel
  | succ f ih =>
    have same : ∀ b : Bool, LRel o A base D V c c (pure b) (pure (s, b) : Lex (Text × Bool)) (fun v a W d => v = a.2 ∧ W = V.set .str (B a.1) ∧ c = d) :=
      fun b => xr_pure ⟨rfl, by rw [← hv, RV.set_get], rfl⟩
    have next : ∀ {W : RV} {k : Nat} (s' : Text), W = V.set .str (B s') → LRel o A base D W c c (do hin o (cacheC k); hFlowChars o start single f)
        (do cacheC k; flowChars start single f s') (fun v a W d => v = a.2 ∧ W = V.set .str (B a.1) ∧ c = d) := by
      rintro _ k s' rfl
      refine lr_in fun _ => ?_
      refine xr_post (ih (RV.get_same ..)) ?_
      rintro _ _ _ _ ⟨h1, rfl, rfl⟩
      exact ⟨h1, RV.set_set .., rfl⟩
    have read : LRel o A base D V c c (do sRead o .str; hin o (cacheC 2); hFlowChars o start single f)
        (do let s ← readC s; cacheC 2; flowChars start single f s) (fun v a W d => v = a.2 ∧ W = V.set .str (B a.1) ∧ c = d) := by
      refine xr_bind (lr_read hr hv) ?_
      rintro _ a _ _ ⟨_, rfl, rfl⟩
      exact next a rfl
    unfold hFlowChars flowChars
    refine lr_in fun ch => xr_ite (fun _ => same _) (fun _ => xr_ite (fun _ => ?_) (fun _ => ?_))
    · refine xr_ite (fun _ => ?_) (fun _ => read)
      refine lr_in fun ch' => xr_ite (fun _ => ?_) (fun _ => same _)
      refine xr_do (lr_sRoom hr hv) ?_
      rintro _ _ _ ⟨rfl, rfl⟩
      refine xr_do (lr_sStore 0 hr (RV.get_same ..) (by simp)) ?_
      rintro _ _ _ ⟨rfl, rfl⟩
      refine lr_in fun _ => lr_in fun _ => ?_
      refine next _ ?_
      rw [RV.set_set, B, textBytes_append]
      rfl
    · refine xr_ite (fun _ => same _) (fun _ => xr_ite (fun _ => ?_) (fun _ => read))
      refine lr_in fun ch' => xr_ite (fun _ => ?_) (fun _ => ?_)
      · exact lr_in fun _ => lr_in fun _ => lr_in fun _ => same _
      · refine xr_bind (lr_escape hr hv) ?_
        rintro _ a _ _ ⟨rfl, rfl⟩
        exact next a rfl

/-- What the strings hold between two runs of characters. -/
abbrev GV (s : Text) (g : Gap) : RV := ⟨B s, B g.leading, B g.trailing, B g.white⟩

structure GapOk (g : Gap) : Prop where
  white : g.blanks = true → g.white = []
  none : g.blanks = false → g.leading = [] ∧ g.trailing = []
  leading : Brks g.leading
  trailing : Brks g.trailing

abbrev regs4 : List Reg := [.str, .lead, .trail, .white]

theorem lr_joinGap {s : Text} {g : Gap} (hg : GapOk g) :
    LRel o A base regs4 (GV s g) c c (hJoinGap g.blanks) (pure () : Lex Unit) (fun _ _ W d => W = GV (joinGap s g) {} ∧ c = d) := by
  unfold hJoinGap joinGap
  by_cases hb : g.blanks = true
  · rw [if_pos hb, if_pos hb]
    have hw := hg.white hb
    refine xr_do (lr_sByte (r := .lead) (t := textBytes g.leading) (n := 0) (j := 0) (by omega) (by simp) rfl) ?_
    rintro _ _ _ ⟨rfl, rfl, rfl⟩
    rw [brk_lf hg.leading]
    by_cases hl : (g.leading.head? == some 0xA) = true
    · rw [if_pos hl, if_pos hl]
      refine xr_do (lr_sByte (r := .trail) (t := textBytes g.trailing) (n := 0) (j := 0) (by omega) (by simp) rfl) ?_
      rintro _ _ _ ⟨rfl, rfl, rfl⟩
      rw [brk_zero hg.trailing]
      have hif : LRel o A base regs4 (GV s g) c c
          (if g.trailing.isEmpty then do sRoom .str; sStore .str [0x20] else do sJoin .str .trail; sClear .trail : HL Unit) (pure () : Lex Unit)
          (fun _ _ W d => W = ⟨B (if g.trailing.isEmpty then s ++ [0x20] else s ++ g.trailing), B g.leading, B [], B []⟩ ∧ c = d) := by
        by_cases he : g.trailing.isEmpty = true
        · rw [if_pos he, if_pos he]
          refine xr_do (lr_sRoom (t := textBytes s) (n := 0) (by simp) rfl) ?_
          rintro _ _ _ ⟨rfl, rfl⟩
          refine xr_post (lr_sStore (t := textBytes s) 0 (by simp) rfl (by simp)) ?_
          rintro _ _ _ _ ⟨rfl, rfl⟩
          refine ⟨?_, rfl⟩
          rw [b_space, GV, hw, List.isEmpty_iff.mp he]
          rfl
        · rw [if_neg he, if_neg he]
          refine xr_do (lr_sJoin (s := s) (t := g.trailing) (by simp) (by simp) (by decide) rfl rfl) ?_
          rintro _ _ _ ⟨⟨w, hw2, rfl⟩, rfl⟩
          refine xr_post (lr_sClear (v := w) (by simp) rfl hw2) ?_
          rintro _ _ _ _ ⟨rfl, rfl⟩
          refine ⟨?_, rfl⟩
          rw [GV, hw]
          rfl
      refine xr_do hif ?_
      rintro _ _ _ ⟨rfl, rfl⟩
      refine xr_post (lr_sClear (v := B g.leading) (by simp) rfl nofun) ?_
      rintro _ _ _ _ ⟨rfl, rfl⟩
      exact ⟨rfl, rfl⟩
    · rw [if_neg hl, if_neg hl]
      refine xr_do (lr_sJoin (s := s) (t := g.leading) (by simp) (by simp) (by decide) rfl rfl) ?_
      rintro _ _ _ ⟨⟨w, hw2, rfl⟩, rfl⟩
      refine xr_do (lr_sJoin (s := s ++ g.leading) (t := g.trailing) (by simp) (by simp) (by decide) rfl rfl) ?_
      rintro _ _ _ ⟨⟨w', hw3, rfl⟩, rfl⟩
      refine xr_do (lr_sClear (v := w) (by simp) rfl hw2) ?_
      rintro _ _ _ ⟨rfl, rfl⟩
      refine xr_post (lr_sClear (v := w') (by simp) rfl hw3) ?_
      rintro _ _ _ _ ⟨rfl, rfl⟩
      refine ⟨?_, rfl⟩
      rw [GV, hw]
      rfl
  · rw [if_neg hb, if_neg hb]
    obtain ⟨h1, h2⟩ := hg.none (by simpa using hb)
    refine xr_do (lr_sJoin (s := s) (t := g.white) (by simp) (by simp) (by decide) rfl rfl) ?_
    rintro _ _ _ ⟨⟨w, hw2, rfl⟩, rfl⟩
    refine xr_post (lr_sClear (v := w) (by simp) rfl hw2) ?_
    rintro _ _ _ _ ⟨rfl, rfl⟩
    refine ⟨?_, rfl⟩
    rw [GV, h1, h2]
    rfl

theorem GapOk.empty (b : Bool) : GapOk { blanks := b } := ⟨fun _ => rfl, fun _ => ⟨rfl, rfl⟩, nofun, nofun⟩

theorem lr_flowBlanks {f : Nat} {s : Text} {g : Gap} (hg : GapOk g) :
    LRel o A base regs4 (GV s g) c c (hFlowBlanks o f g.blanks) (flowBlanks f g) (fun v a W d => v = a.blanks ∧ GapOk a ∧ W = GV s a ∧ c = d) := by
  induction f generalizing g with
  | zero => exact xr_fuel
  | succ f ih =>
    unfold hFlowBlanks flowBlanks
    refine lr_in fun ch => xr_ite (fun _ => xr_ite (fun _ => ?_) (fun hb => ?_)) (fun _ => xr_ite (fun _ => ?_) (fun _ => ?_))
    · exact lr_in fun _ => lr_in fun _ => ih hg
    · refine xr_bind (lr_read (r := .white) (s := g.white) (n := 0) (by simp) rfl) ?_
      rintro _ a _ _ ⟨_, rfl, rfl⟩
      exact lr_in fun _ => ih (g := { g with white := a }) ⟨fun h => absurd h hb, hg.none, hg.leading, hg.trailing⟩
    · refine lr_in fun _ => xr_ite (fun hb => ?_) (fun hb => ?_)
      · refine xr_bind (lr_readLine (r := .trail) (s := g.trailing) (n := 0) (by simp) rfl) ?_
        rintro _ a _ _ ⟨⟨u, rfl, hu⟩, rfl, rfl⟩
        exact lr_in fun _ => ih (g := { g with trailing := g.trailing ++ u })
          ⟨hg.white, fun h => (by simp only at h; rw [hb] at h; cases h), hg.leading, hg.trailing.append hu⟩
      · refine xr_do (lr_sClear (v := B g.white) (by simp) rfl nofun) ?_
        rintro _ _ _ ⟨rfl, rfl⟩
        refine xr_bind (lr_readLine (r := .lead) (s := g.leading) (n := 0) (by simp) rfl) ?_
        rintro _ a _ _ ⟨⟨u, rfl, hu⟩, rfl, rfl⟩
        exact lr_in fun _ => ih (g := { g with white := [], leading := g.leading ++ u, blanks := true })
          ⟨fun _ => rfl, nofun, hg.leading.append hu, hg.trailing⟩
    · exact xr_pure ⟨rfl, hg, rfl, rfl⟩

theorem lr_flowBody {f n : Nat} {start : Mark} {single : Bool} {s : Text} :
    LRel o A base regs4 (GV s {}) c c (hFlowBody o f start single n) (flowBody f start single n s) (fun _ a W d => W = GV a {} ∧ c = d) := by
  induction n generalizing s with
  | zero => exact xr_fuel
  | succ n ih =>
    unfold hFlowBody flowBody
    refine lr_in fun _ => lr_in fun _ => xr_ite (fun _ => lr_err) (fun _ => ?_)
    refine lr_in fun _ => xr_ite (fun _ => lr_err) (fun _ => ?_)
    refine lr_in fun _ => ?_
    refine xr_bind (lr_flowChars (by simp) rfl) ?_
    rintro b ⟨s', _⟩ _ _ ⟨rfl, rfl, rfl⟩
    refine lr_in fun _ => lr_in fun _ => xr_ite (fun _ => xr_pure ⟨rfl, rfl⟩) (fun _ => ?_)
    refine xr_bind (lr_flowBlanks (g := { blanks := b }) (s := s') (.empty b)) ?_
    rintro _ g _ _ ⟨rfl, hg, rfl, rfl⟩
    refine xr_do (lr_joinGap hg) ?_
    rintro _ _ _ ⟨rfl, rfl⟩
    exact ih

theorem lr_flow {f : Nat} {single : Bool} : LRel o A base [] nullV c c (hFlowToken o f single) (scanFlowScalar f single) (QT c) := by
  unfold hFlowToken scanFlowScalar
  refine lr_orDel (by decide) (fun _ _ _ _ h => h.1) ?_
  refine xr_do (lr_sInit (by simp) rfl) ?_
  rintro _ _ _ ⟨rfl, rfl⟩
  refine xr_do (lr_sInit (by simp) rfl) ?_
  rintro _ _ _ ⟨rfl, rfl⟩
  refine xr_do (lr_sInit (by simp) rfl) ?_
  rintro _ _ _ ⟨rfl, rfl⟩
  refine xr_do (lr_sInit (by simp) rfl) ?_
  rintro _ _ _ ⟨rfl, rfl⟩
  refine lr_now fun start => lr_in fun _ => ?_
  refine xr_bind (lr_flowBody (s := [])) ?_
  rintro _ s _ _ ⟨rfl, rfl⟩
  refine lr_in fun _ => lr_now fun stop => ?_
  refine xr_do (lr_sDel (by simp) rfl) ?_
  rintro _ _ _ ⟨rfl, rfl⟩
  refine xr_do (lr_sDel (by simp) rfl) ?_
  rintro _ _ _ ⟨rfl, rfl⟩
  refine xr_do (lr_sDel (by simp) rfl) ?_
  rintro _ _ _ ⟨rfl, rfl⟩
  refine xr_do (lr_sTake (t := textBytes s) (n := 0) (by simp) rfl) ?_
  rintro _ _ _ ⟨rfl, p, k, rfl, hk, rfl⟩
  exact xr_pure ⟨rfl, [(p, .bytes (textBytes s ++ List.replicate k 0))], ⟨p, k, rfl, hk, rfl⟩, rfl, rfl, List.Perm.refl _⟩

/-! ### Plain scalars -/

theorem lr_plainJoin {s : Text} {g : Gap} (hg : GapOk g) :
    LRel o A base regs4 (GV s g) c c (hPlainJoin g.blanks) (pure () : Lex Unit) (fun _ _ W d => W = GV (joinGap s g) {} ∧ c = d) := by
  unfold hPlainJoin
  have hj := lr_joinGap (o := o) (A := A) (base := base) (c := c) (s := s) hg
  by_cases hb : g.blanks = true
  · rw [if_pos hb]
    rw [hb] at hj
    exact hj
  · rw [if_neg hb]
    rw [Bool.not_eq_true] at hb
    rw [hb] at hj
    refine xr_do (lr_sLen (r := .white) (t := textBytes g.white) (n := 0) (by simp) rfl) ?_
    rintro _ _ _ ⟨rfl, rfl, rfl⟩
    by_cases hw : (textBytes g.white).length = 0
    · rw [if_neg (by simpa using hw)]
      obtain ⟨h1, h2⟩ := hg.none hb
      have hw := textBytes_empty.mp hw
      refine xr_pure ⟨?_, rfl⟩
      unfold joinGap
      rw [GV, h1, h2, hw, hb]
      simp
    · rw [if_pos hw]
      exact hj

theorem lr_plainChars {f : Nat} {start stop : Mark} {flow : Bool} {s : Text} {g : Gap} (hg : GapOk g) :
    LRel o A base regs4 (GV s g) c c (hPlainChars o start flow f g.blanks stop) (plainChars start flow f s g stop)
      (fun v a W d => v = (a.2.1.blanks, a.2.2) ∧ GapOk a.2.1 ∧ W = GV a.1 a.2.1 ∧ c = d) := by
  induction f generalizing s g stop with
  | zero => exact xr_fuel
  | succ f ih =>
    have same : LRel o A base regs4 (GV s g) c c (pure (g.blanks, stop)) (pure (s, g, stop) : Lex (Text × Gap × Mark))
        (fun v a W d => v = (a.2.1.blanks, a.2.2) ∧ GapOk a.2.1 ∧ W = GV a.1 a.2.1 ∧ c = d) := xr_pure ⟨rfl, hg, rfl, rfl⟩
    have read : LRel o A base regs4 (GV s g) c c (do hPlainJoin g.blanks; sRead o .str; let stop ← xget LX.mark; hin o (cacheC 2); hPlainChars o start flow f false stop)
        (do let s ← readC (joinGap s g); let stop ← get; cacheC 2; plainChars start flow f s {} stop)
        (fun v a W d => v = (a.2.1.blanks, a.2.2) ∧ GapOk a.2.1 ∧ W = GV a.1 a.2.1 ∧ c = d) := by
      refine xr_do (lr_plainJoin hg) ?_
      rintro _ _ _ ⟨rfl, rfl⟩
      refine xr_bind (lr_read (r := .str) (s := joinGap s g) (n := 0) (by simp) rfl) ?_
      rintro _ a _ _ ⟨_, rfl, rfl⟩
      exact lr_now fun stop => lr_in fun _ => ih (g := {}) (s := a) (.empty false)
    unfold hPlainChars plainChars
    refine lr_in fun ch => xr_ite (fun _ => same) (fun _ => xr_ite (fun _ => ?_) (fun _ => xr_ite (fun _ => same) (fun _ => read)))
    exact lr_in fun ch' => xr_ite (fun _ => lr_err) (fun _ => xr_ite (fun _ => same) (fun _ => read))

theorem lr_plainBlanks {f : Nat} {start : Mark} {indent : Int} {s : Text} {g : Gap} (hg : GapOk g) :
    LRel o A base regs4 (GV s g) c c (hPlainBlanks o start indent f g.blanks) (plainBlanks start indent f g)
      (fun v a W d => v = a.blanks ∧ GapOk a ∧ W = GV s a ∧ c = d) := by
  induction f generalizing g with
  | zero => exact xr_fuel
  | succ f ih =>
    unfold hPlainBlanks plainBlanks
    refine lr_in fun ch => xr_ite (fun _ => xr_ite (fun _ => ?_) (fun hb => ?_)) (fun _ => xr_ite (fun _ => ?_) (fun _ => ?_))
    · exact lr_col fun m => xr_ite (fun _ => lr_err) (fun _ => lr_in fun _ => lr_in fun _ => ih hg)
    · refine xr_bind (lr_read (r := .white) (s := g.white) (n := 0) (by simp) rfl) ?_
      rintro _ a _ _ ⟨_, rfl, rfl⟩
      exact lr_in fun _ => ih (g := { g with white := a }) ⟨fun h => absurd h hb, hg.none, hg.leading, hg.trailing⟩
    · refine lr_in fun _ => xr_ite (fun hb => ?_) (fun hb => ?_)
      · refine xr_bind (lr_readLine (r := .trail) (s := g.trailing) (n := 0) (by simp) rfl) ?_
        rintro _ a _ _ ⟨⟨u, rfl, hu⟩, rfl, rfl⟩
        exact lr_in fun _ => ih (g := { g with trailing := g.trailing ++ u })
          ⟨hg.white, fun h => (by simp only at h; rw [hb] at h; cases h), hg.leading, hg.trailing.append hu⟩
      · refine xr_do (lr_sClear (v := B g.white) (by simp) rfl nofun) ?_
        rintro _ _ _ ⟨rfl, rfl⟩
        refine xr_bind (lr_readLine (r := .lead) (s := g.leading) (n := 0) (by simp) rfl) ?_
        rintro _ a _ _ ⟨⟨u, rfl, hu⟩, rfl, rfl⟩
        exact lr_in fun _ => ih (g := { g with white := [], leading := g.leading ++ u, blanks := true })
          ⟨fun _ => rfl, nofun, hg.leading.append hu, hg.trailing⟩
    · exact xr_pure ⟨rfl, hg, rfl, rfl⟩

theorem lr_plainBody {f n : Nat} {start stop : Mark} {flow : Bool} {indent : Int} {s : Text} {g : Gap} (hg : GapOk g) :
    LRel o A base regs4 (GV s g) c c (hPlainBody o f start flow indent n g.blanks stop) (plainBody f start flow indent n s g stop)
      (fun v a W d => v = (a.2.1.blanks, a.2.2) ∧ W = GV a.1 a.2.1 ∧ c = d) := by
  induction n generalizing s g stop with
  | zero => exact xr_fuel
  | succ n ih =>
    unfold hPlainBody plainBody
    refine lr_in fun _ => lr_in fun _ => xr_ite (fun _ => xr_pure ⟨rfl, rfl, rfl⟩) (fun _ => ?_)
    refine lr_in fun _ => xr_ite (fun _ => xr_pure ⟨rfl, rfl, rfl⟩) (fun _ => ?_)
    refine xr_bind (lr_plainChars hg) ?_
    rintro _ ⟨s', g', stop'⟩ _ _ ⟨rfl, hg', rfl, rfl⟩
    refine lr_in fun ch => xr_ite (fun _ => ?_) (fun _ => xr_pure ⟨rfl, rfl, rfl⟩)
    refine lr_in fun _ => ?_
    refine xr_bind (lr_plainBlanks hg') ?_
    rintro _ g2 _ _ ⟨rfl, hg2, rfl, rfl⟩
    exact lr_col fun m => xr_ite (fun _ => xr_pure ⟨rfl, rfl, rfl⟩) (fun _ => ih hg2)

theorem lr_plain {f : Nat} {pi : Int} {flow : Bool} :
    LRel o A base [] nullV c c (hPlainToken o f pi flow) (scanPlainScalar f pi flow) (fun v a W d => QT c v.1 a.1 W d ∧ v.2 = a.2) := by
  unfold hPlainToken scanPlainScalar
  refine lr_orDel (by decide) (fun _ _ _ _ h => h.1.1) ?_
  refine xr_do (lr_sInit (by simp) rfl) ?_
  rintro _ _ _ ⟨rfl, rfl⟩
  refine xr_do (lr_sInit (by simp) rfl) ?_
  rintro _ _ _ ⟨rfl, rfl⟩
  refine xr_do (lr_sInit (by simp) rfl) ?_
  rintro _ _ _ ⟨rfl, rfl⟩
  refine xr_do (lr_sInit (by simp) rfl) ?_
  rintro _ _ _ ⟨rfl, rfl⟩
  refine lr_now fun start => ?_
  refine xr_bind (lr_plainBody (s := []) (g := {}) (.empty false)) ?_
  rintro _ ⟨s, g, stop⟩ _ _ ⟨rfl, rfl, rfl⟩
  refine xr_do (lr_sDel (by simp) rfl) ?_
  rintro _ _ _ ⟨rfl, rfl⟩
  refine xr_do (lr_sDel (by simp) rfl) ?_
  rintro _ _ _ ⟨rfl, rfl⟩
  refine xr_do (lr_sDel (by simp) rfl) ?_
  rintro _ _ _ ⟨rfl, rfl⟩
  refine xr_do (lr_sTake (t := textBytes s) (n := 0) (by simp) rfl) ?_
  rintro _ _ _ ⟨rfl, p, k, rfl, hk, rfl⟩
  exact xr_pure ⟨⟨rfl, [(p, .bytes (textBytes s ++ List.replicate k 0))], ⟨p, k, rfl, hk, rfl⟩, rfl, rfl, List.Perm.refl _⟩, rfl⟩

end LibYaml
