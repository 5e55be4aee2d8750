import Verif.Proofs.CleanTokens
import Verif.Proofs.ScannerHeap

/-!
# The scanner on the heap: reading characters
-/

namespace LibYaml

open Spec

set_option linter.unusedSectionVars false

/-- A string variable with this text. -/
abbrev B (t : Text) : RegV := .bytes (textBytes t) 0

theorem textBytes_one (c : Nat) : textBytes [c] = octets c := by
  unfold textBytes
  simp

section
variable {σ θ ι α α' β β' : Type} {rep : ι → σ → θ → RS → Blocks → Prop} {o : Oracle} {A : Prop} {base : Nat → Option Obj} {big : σ → Prop}
variable {i : ι} {own keep : Blocks}

/-- The program on values goes on with a pure step. -/
theorem xr_map {m : XM σ β} {x : StateT θ Prog α} {g : α → α'} {Q1 : β → α → ι → Blocks → Prop} {Q : β → α' → ι → Blocks → Prop}
    (h1 : XRel rep o A base big i own keep m x Q1) (h2 : ∀ v a j c, Q1 v a j c → Q v (g a) j c) :
    XRel rep o A base big i own keep m (x >>= fun a => pure (g a)) Q := by
  intro s t inp b h hr e sane
  rw [runS_bind] at sane ⊢
  have sx : Sane ((x t).runR o inp) := by
    intro er hx
    rw [hx] at sane
    exact sane er rfl
  refine hw_mono (h1 s t inp b h hr e sx) ?_
  rintro ⟨er | v, s'⟩ h' post
  · obtain ⟨hk, hf⟩ := post
    refine ⟨hk, ?_⟩
    rcases hf with ⟨f, hf, hv⟩ | hm
    · rw [hf]
      exact .inl ⟨f, rfl, hv⟩
    · exact .inr hm
  · obtain ⟨a, t', inp', j, c, b', hrun, hr', e', hq⟩ := post
    rw [hrun]
    exact ⟨g a, t', inp', j, c, b', rfl, hr', e', h2 _ _ _ _ hq⟩

end

section
variable {α α' β β' : Type} {o : Oracle} {A : Prop} {base : Nat → Option Obj} {D : List Reg} {V : RV} {c keep : Blocks} {r : Reg} {s : Text} {n : Nat}

theorem RV.set_set (V : RV) (r : Reg) (v w : RegV) : (V.set r v).set r w = V.set r w := by cases r <;> rfl

theorem RV.get_same (V : RV) (r : Reg) (v : RegV) : (V.set r v).get r = v := by cases r <;> rfl

/-- A part of the scanner that uses no memory of its own, and what follows. -/
theorem lr_in {x : Lex α} {k : α → HL β'} {y : α → Lex α'} {Q : β' → α' → RV → Blocks → Prop} (h : ∀ a, LRel o A base D V c c (k a) (y a) Q) :
    LRel o A base D V c c (hin o x >>= k) (x >>= y) Q := by
  refine xr_bind lr_hin ?_
  rintro _ a _ _ ⟨rfl, rfl, rfl⟩
  exact h _

theorem lr_err {ctx : Option String} {m : Mark} {p : String} {Q : β → α → RV → Blocks → Prop} :
    LRel o A base D V c c (hin o (lexErr ctx m p)) (lexErr ctx m p) Q := by
  rintro s t inp b h hr e sane
  exact ⟨⟨V, _, _, b, hr, e⟩, .inl ⟨_, rfl, by obtain ⟨rfl, rfl, _⟩ := hr; rfl⟩⟩

theorem lr_get {f : Mark → β} {k : β → HL β'} {y : Mark → Lex α'} {Q : β' → α' → RV → Blocks → Prop} (h : ∀ a, LRel o A base D V c keep (k (f a)) (y a) Q) :
    LRel o A base D V c keep ((xget fun x => f x.mark) >>= k) (get >>= y) Q := by
  refine xr_bind lr_mark ?_
  rintro _ a _ _ ⟨rfl, rfl, rfl⟩
  exact h _

theorem take_utf8 {raw : List UInt8} {v w : Nat} (h : stepUtf8 true 0 raw = .char v w) :
    ∃ b l, raw = b :: l ∧ raw.take (width b.toNat) = octets v ∧ (octets v).length ≤ 4 := by
  have hw : ∃ b l, raw = b :: l ∧ w = width b.toNat := by
    match raw, h with
    | b :: rest, h =>
      refine ⟨b, rest, rfl, ?_⟩
      simp only [stepUtf8] at h
      split at h
      · cases h
      split at h
      · split at h <;> cases h
      split at h
      · cases h
      split at h
      · cases h
      split at h
      · cases h
      injection h with _ h
      exact h.symm
  obtain ⟨h1, h2, h3⟩ := stepUtf8_char h
  obtain ⟨b, l, rfl, rfl⟩ := hw
  have hv : v < 0x200000 := by unfold IsScalar at h3; omega
  refine ⟨b, l, rfl, ?_, ?_⟩
  · rw [h1, octets_utf8 hv, h2, List.take_left]
  · rw [octets_utf8 hv, ← h2]
    unfold width
    split <;> (try split) <;> (try split) <;> (try split) <;> omega

theorem lr_cur : LRel o A base D V c c (curBytes o) (peekC 0) (fun v a W d => v = octets a ∧ v.length ≤ 4 ∧ V = W ∧ c = d) := by
  rintro s t inp b h ⟨rfl, rfl, hr⟩ e sane
  unfold curBytes
  rw [xw_bind]
  have hx := lr_hin (o := o) (x := peekC 0) s s.mark s.inp b h ⟨rfl, rfl, hr⟩ e sane
  rw [runR_peek] at sane hx ⊢
  cases hl : lookR s.inp 0 with
  | error er =>
    rw [hl] at hx sane
    refine hw_mono hx ?_
    rintro ⟨er | v, s'⟩ h' post
    · exact post
    · obtain ⟨a, t', inp', j, d, b', hrun, _⟩ := post
      cases hrun
  | ok ch =>
    unfold hin
    rw [runR_peek, hl]
    unfold lookR at hl
    split at hl
    · split at hl
      · rename_i v w hs
        cases hl
        rw [List.drop_zero] at hs
        obtain ⟨b0, l, hb, ht, h4⟩ := take_utf8 hs
        show hw ((match s.inp.buf with | [] => xstop .ub | b :: _ => pure (s.inp.buf.take (width b.toNat)) : HL (List UInt8)) s) _ h
        rw [hb] at ht ⊢
        exact ⟨_, s.mark, s.inp, V, c, b, rfl, ⟨rfl, rfl, hr⟩, e, ht, by rw [ht]; exact h4, rfl, rfl⟩
      · cases hl
    · cases hl

/-- The bytes of the character just seen. -/
theorem lp_cur {ch : Nat} {k : List UInt8 → HL β} {x : Lex α} {Q : β → α → RV → Blocks → Prop}
    (h : (octets ch).length ≤ 4 → LRel o A base D V c keep (k (octets ch)) x Q) : LPre o A base D ch V c keep (curBytes o >>= k) x Q := by
  rintro s t inp b hh hl ⟨rfl, rfl, hr⟩ e sane
  rw [xw_bind]
  unfold curBytes
  rw [xw_bind]
  unfold hin
  rw [runR_peek, hl]
  unfold lookR at hl
  split at hl
  · split at hl
    · rename_i v w hs
      cases hl
      rw [List.drop_zero] at hs
      obtain ⟨b0, l, hb, ht, h4⟩ := take_utf8 hs
      show hw ((match s.inp.buf with | [] => xstop .ub | b :: _ => pure (s.inp.buf.take (width b.toNat)) : HL (List UInt8)) s) _ hh
      rw [hb] at ht ⊢
      dsimp only
      rw [ht]
      exact h h4 s s.mark s.inp b hh ⟨rfl, rfl, hr⟩ e sane
    · cases hl
  · cases hl

theorem lrep_weaken {v w : RegV} {s : LX} {m : Mark} {inp : RS} {b : Blocks} (hvw : ∀ s b, StrgAt v s b → StrgAt w s b) (hr : r ∈ D)
    (h : LRep D (V.set r v) s m inp b) : LRep D (V.set r w) s m inp b := by
  obtain ⟨h1, h2, ⟨b1, b2, b3, b4, g1, g2, g3, g4, rfl⟩, h4⟩ := h
  refine ⟨h1, h2, ?_, fun q hq => ?_⟩
  · cases r
    · exact ⟨b1, b2, b3, b4, hvw _ _ g1, g2, g3, g4, rfl⟩
    · exact ⟨b1, b2, b3, b4, g1, hvw _ _ g2, g3, g4, rfl⟩
    · exact ⟨b1, b2, b3, b4, g1, g2, hvw _ _ g3, g4, rfl⟩
    · exact ⟨b1, b2, b3, b4, g1, g2, g3, hvw _ _ g4, rfl⟩
  · have := h4 q hq
    rw [RV.get_set, if_neg (by rintro rfl; exact hq hr)] at this ⊢
    exact this

/-- The room that was made is not needed. -/
theorem lr_slack {t : List UInt8} {m : HL β} {x : Lex α} {Q : β → α → RV → Blocks → Prop} (hr : r ∈ D)
    (h : LRel o A base D (V.set r (.bytes t 0)) c keep m x Q) : LRel o A base D (V.set r (.bytes t n)) c keep m x Q :=
  xr_pre h fun _ _ _ _ hrep => lrep_weaken (v := .bytes t n) (fun _ _ ⟨a, k, h1, h2, h3, h4⟩ => ⟨a, k, h1, h2, by omega, h4⟩) hr hrep

theorem lr_read (hr : r ∈ D) (hv : V.get r = .bytes (textBytes s) n) :
    LRel o A base D V c c (sRead o r) (readC s) (fun _ a W d => (∃ ch, a = s ++ [ch]) ∧ W = V.set r (B a) ∧ c = d) := by
  unfold sRead readC
  refine xr_do (lr_sRoom hr hv) ?_
  rintro _ _ _ ⟨rfl, rfl⟩
  refine xr_bind lr_cur ?_
  rintro v a _ _ ⟨rfl, hl, rfl, rfl⟩
  refine xr_do (lr_sStore 0 hr (RV.get_same ..) (by omega)) ?_
  rintro _ _ _ ⟨rfl, rfl⟩
  refine xr_map lr_hin ?_
  rintro _ _ _ _ ⟨_, rfl, rfl⟩
  refine ⟨⟨a, rfl⟩, ?_, rfl⟩
  rw [RV.set_set, B, textBytes_append, textBytes_one]

/-- Reading the character just seen. -/
theorem lp_read {ch : Nat} {k : Unit → HL β'} {y : Text → Lex α'} {Q : β' → α' → RV → Blocks → Prop} (hr : r ∈ D) (hv : V.get r = .bytes (textBytes s) n)
    (h : LRel o A base D (V.set r (B (s ++ [ch]))) c c (k ()) (y (s ++ [ch])) Q) : LPre o A base D ch V c c (sRead o r >>= k) (readC s >>= y) Q := by
  intro st t inp b hh hl hrep e sane
  rw [xw_bind]
  rw [runS_bind] at sane ⊢
  have sx : Sane (((readC s) t).runR o inp) := by
    intro er hx
    rw [hx] at sane
    exact sane er rfl
  refine hw_mono (lr_read (o := o) hr hv st t inp b hh hrep e sx) ?_
  rintro ⟨er | v, s'⟩ h' post
  · obtain ⟨hk, hf⟩ := post
    refine ⟨hk, ?_⟩
    rcases hf with ⟨f, hf, hv⟩ | hm
    · rw [hf]
      exact .inl ⟨f, rfl, hv⟩
    · exact .inr hm
  · obtain ⟨a, t', inp', j, d, b', hrun, hr', e', _, rfl, rfl⟩ := post
    have ha : a = s ++ [ch] := by
      unfold readC at hrun
      rw [runS_bind, runR_peek, hl] at hrun
      simp only at hrun
      rw [runS_bind] at hrun
      split at hrun
      · cases hrun
      · cases hrun; rfl
    subst ha
    rw [hrun] at sane ⊢
    exact h s' t' inp' b' h' hr' e' sane

theorem run_pure {x : Lex α} {t : Mark} {inp : RS} : ((x >>= pure) t).runR o inp = (x t).runR o inp := by
  rw [runS_bind]
  rcases (x t).runR o inp with e | ⟨⟨a, t⟩, i⟩ <;> rfl

theorem lp_last {ch : Nat} {m : HL β} {x : Lex α} {Q : β → α → RV → Blocks → Prop} (h : LPre o A base D ch V c keep m (x >>= pure) Q) :
    LPre o A base D ch V c keep m x Q := by
  intro s t inp b hh hl hr e sane
  have := h s t inp b hh hl hr e
  rw [run_pure] at this
  exact this sane

/-- Only line breaks. -/
def Brks (t : Text) : Prop := ∀ c ∈ t, c = 0xA ∨ c = 0x2028 ∨ c = 0x2029

theorem Brks.append {t u : Text} (h1 : Brks t) (h2 : Brks u) : Brks (t ++ u) := fun c hc => (List.mem_append.mp hc).elim (h1 c) (h2 c)

theorem lr_readLine (hr : r ∈ D) (hv : V.get r = .bytes (textBytes s) n) :
    LRel o A base D V c c (sReadLine o r) (readLine s) (fun _ a W d => (∃ u, a = s ++ u ∧ Brks u) ∧ W = V.set r (B a) ∧ c = d) := by
  have hl : ∀ (W : RV) (k : Nat), W.get r = .bytes (textBytes s) 5 →
      LRel o A base D W c c (do sStore r [0xA]; hin o (passBreak k)) (do passBreak k; pure (s ++ [0xA]))
        (fun _ a W' d => (∃ u, a = s ++ u ∧ Brks u) ∧ W' = W.set r (B a) ∧ c = d) := by
    intro W k hW
    refine xr_do (lr_sStore 0 hr hW (by simp)) ?_
    rintro _ _ _ ⟨rfl, rfl⟩
    refine xr_map lr_hin ?_
    rintro _ _ _ _ ⟨_, rfl, rfl⟩
    refine ⟨⟨[0xA], rfl, fun c hc => .inl (List.mem_singleton.mp hc)⟩, ?_, rfl⟩
    rw [B, textBytes_append, textBytes_one]
    rfl
  unfold sReadLine readLine
  refine xr_do (lr_sRoom hr hv) ?_
  rintro _ _ _ ⟨rfl, rfl⟩
  refine lr_peek fun ch => ?_
  refine lp_ite (fun _ => .of ?_) (fun _ => lp_ite (fun _ => .of ?_) (fun _ => lp_ite (fun h2 => ?_) (fun _ => .of ?_)))
  · refine lr_in fun d => ?_
    refine xr_post (hl _ _ (RV.get_same ..)) ?_
    rintro _ _ _ _ ⟨h1, rfl, rfl⟩
    exact ⟨h1, RV.set_set .., rfl⟩
  · refine xr_post (hl _ _ (RV.get_same ..)) ?_
    rintro _ _ _ _ ⟨h1, rfl, rfl⟩
    exact ⟨h1, RV.set_set .., rfl⟩
  · refine lp_cur fun h4 => ?_
    refine xr_do (lr_sStore 0 hr (RV.get_same ..) (by omega)) ?_
    rintro _ _ _ ⟨rfl, rfl⟩
    refine xr_map lr_hin ?_
    rintro _ _ _ _ ⟨_, rfl, rfl⟩
    refine ⟨⟨[ch], rfl, fun c hc => ?_⟩, ?_, rfl⟩
    · rw [List.mem_singleton.mp hc]
      right
      simpa using h2
    · rw [B, RV.set_set, textBytes_append, textBytes_one]
  · exact lr_slack hr (xr_pure ⟨⟨[], by simp, nofun⟩, rfl, rfl⟩)

/-- Reading characters; the result counts them. -/
theorem lr_readWhile {p : Nat → Bool} {f k : Nat} (hr : r ∈ D) (hv : V.get r = B s) :
    LRel o A base D V c c (sReadWhile o p r f k) (readWhile p f s) (fun v a W d => (∃ u, a = s ++ u ∧ (∀ ch ∈ u, p ch = true) ∧ v = k + u.length) ∧
      W = V.set r (B a) ∧ c = d) := by
  induction f generalizing V s k with
  | zero => exact xr_fuel
  | succ f ih =>
    unfold sReadWhile readWhile
    refine lr_peek fun ch => lp_ite (fun hp => ?_) (fun _ => .of ?_)
    · refine lp_read hr hv ?_
      refine lr_in fun _ => ?_
      refine xr_post (ih (RV.get_same ..)) ?_
      rintro v a _ _ ⟨⟨u, rfl, hu, rfl⟩, rfl, rfl⟩
      refine ⟨⟨ch :: u, by simp, ?_, by simp; omega⟩, RV.set_set .., rfl⟩
      intro x hx
      rcases List.mem_cons.mp hx with rfl | hx
      · exact hp
      · exact hu x hx
    · exact xr_pure ⟨⟨[], by simp, nofun, rfl⟩, by rw [← hv, RV.set_get], rfl⟩

/-! ### C strings -/

/-- A character without NUL octets, or NUL itself. -/
def Okc (c : Nat) : Prop := c = 0 ∨ 0 ∉ octets c

theorem okc_small {c : Nat} (h : c < 0x80) : Okc c := by
  by_cases h0 : c = 0
  · exact .inl h0
  · right
    rw [octets_utf8 (by omega)]
    unfold utf8
    rw [if_pos h]
    intro hm
    have := List.mem_singleton.mp hm
    have := congrArg UInt8.toNat this
    simp at this
    omega

/-- A C string. -/
def CStr (t : Text) (p : Ptr) (b : Blocks) : Prop := ∃ a mem, p = some a ∧ b = [(a, .bytes mem)] ∧ 0 ∈ mem ∧ cbytes mem = textBytes t

theorem cbytes_text {t : Text} {k : Nat} (ht : ∀ c ∈ t, Okc c) (hk : 0 < k) :
    0 ∈ textBytes t ++ List.replicate k (0 : UInt8) ∧ cbytes (textBytes t ++ List.replicate k 0) = textBytes (cstr t) := by
  refine ⟨by simp; omega, ?_⟩
  induction t with
  | nil =>
    obtain ⟨k, rfl⟩ : ∃ j, k = j + 1 := ⟨k - 1, by omega⟩
    simp [textBytes, cstr, cbytes, List.replicate_succ]
  | cons x t ih =>
    have hx := ht x List.mem_cons_self
    have ih := ih (fun c hc => ht c (List.mem_cons_of_mem _ hc))
    have hc : textBytes (x :: t) = octets x ++ textBytes t := rfl
    rw [hc, List.append_assoc]
    by_cases h0 : x = 0
    · subst h0
      have : octets 0 = [0] := by decide
      rw [this]
      simp [cbytes, cstr, textBytes]
    · have hz : (0 : UInt8) ∉ octets x := hx.resolve_left h0
      have hs : cstr (x :: t) = x :: cstr t := by
        unfold cstr
        rw [List.takeWhile_cons, if_pos (by simpa using h0)]
      rw [hs]
      show _ = octets x ++ textBytes (cstr t)
      rw [← ih]
      unfold cbytes
      rw [List.takeWhile_append_of_pos]
      intro b hb
      simp only [bne_iff_ne, ne_eq]
      rintro rfl
      exact hz hb

theorem cstr_nonzero {t : Text} (h : ∀ c ∈ t, c ≠ 0) : cstr t = t := by
  unfold cstr
  induction t with
  | nil => rfl
  | cons x t ih =>
    rw [List.takeWhile_cons, if_pos (by simpa using h x List.mem_cons_self), ih (fun c hc => h c (List.mem_cons_of_mem _ hc))]

end

end LibYaml
