import Verif.Proofs.ScannerHeapText

/-!
# The scanner on the heap: directives, anchors and tags
-/

namespace LibYaml

open Spec

set_option linter.unusedSectionVars false

variable {α α' β β' : Type} {o : Oracle} {A : Prop} {base : Nat → Option Obj} {D : List Reg} {V : RV} {c keep : Blocks}

theorem textBytes_empty {t : Text} : (textBytes t).length = 0 ↔ t = [] := by
  constructor
  · intro h
    cases t with
    | nil => rfl
    | cons x t =>
      have h : (octets x ++ textBytes t).length = 0 := h
      have hx := octets_ne_nil x
      simp at h
      exact absurd h.1 hx
  · rintro rfl
    rfl

theorem textBytes_low {t : Text} (h : ∀ c ∈ t, c < 0x80) : textBytes t = t.map UInt8.ofNat := by
  induction t with
  | nil => rfl
  | cons x t ih =>
    show octets x ++ textBytes t = _
    rw [octets_low (h x List.mem_cons_self), ih (fun c hc => h c (List.mem_cons_of_mem _ hc))]
    rfl

theorem textBytes_inj {s t : Text} (hs : ∀ c ∈ s, c < 0x80) (ht : ∀ c ∈ t, c < 0x80) (h : textBytes s = textBytes t) : s = t := by
  rw [textBytes_low hs, textBytes_low ht] at h
  have h2 := congrArg (List.map UInt8.toNat) h
  simp only [List.map_map] at h2
  have hid : ∀ u : Text, (∀ c ∈ u, c < 0x80) → u.map (UInt8.toNat ∘ UInt8.ofNat) = u := by
    intro u hu
    conv => rhs; rw [← List.map_id u]
    refine List.map_congr_left fun c hc => ?_
    have := hu c hc
    simp [Nat.mod_eq_of_lt (by omega : c < 256)]
  rw [hid s hs, hid t ht] at h2
  exact h2

theorem alpha_low {ch : Nat} (h : isAlpha ch = true) : 0 < ch ∧ ch < 0x80 := by
  simp [isAlpha] at h
  omega

/-- A pointer to a C string was returned. -/
def QC (c : Blocks) (v : Ptr) (a : Text) (W : RV) (d : Blocks) : Prop := W = nullV ∧ ∃ b, CStr a v b ∧ d = b ++ c

theorem lr_takeC {s : Text} {n : Nat} {P : Text → Prop} (hD : Reg.str ∈ D) (hs : ∀ c ∈ s, Okc c) {a : Text} (ha : cstr s = a) (hP : P a) :
    LRel o A base D ⟨.bytes (textBytes s) n, .null, .null, .null⟩ c keep (sTake .str >>= fun s => pure s.start) (pure a)
      (fun v a W d => QC c v a W d ∧ P a) := by
  refine xr_do (lr_sTake hD rfl) ?_
  rintro v _ _ ⟨rfl, p, k, rfl, hk, rfl⟩
  obtain ⟨h1, h2⟩ := cbytes_text (k := k) hs (by omega)
  rw [ha] at h2
  exact xr_pure ⟨⟨rfl, _, ⟨p, _, rfl, rfl, h1, h2⟩, rfl⟩, hP⟩

theorem lr_name {f : Nat} {start : Mark} :
    LRel o A base [] nullV c c (hDirectiveName o f start) (scanDirectiveName f start) (fun v a W d => QC c v a W d ∧ ∀ ch ∈ a, ch < 0x80) := by
  unfold hDirectiveName scanDirectiveName
  refine lr_orDel (by decide) (fun _ _ _ _ h => h.1.1) ?_
  refine xr_do (lr_sInit (by simp) rfl) ?_
  rintro _ _ _ ⟨rfl, rfl⟩
  refine lr_in fun _ => ?_
  refine xr_bind (lr_readWhile (s := []) (by simp) rfl) ?_
  rintro v a _ _ ⟨⟨u, hau, hu, rfl⟩, rfl, rfl⟩
  rw [List.nil_append] at hau
  subst hau
  refine xr_do (lr_sLen (t := textBytes a) (n := 0) (by simp) rfl) ?_
  rintro _ _ _ ⟨rfl, rfl, rfl⟩
  have hlow : ∀ ch ∈ a, ch ≠ 0 ∧ ch < 0x80 := fun ch hc => by have := alpha_low (hu ch hc); omega
  by_cases he : a = []
  · rw [if_pos (textBytes_empty.mpr he), if_pos (by simp [he])]
    exact lr_err
  · rw [if_neg (fun h => he (textBytes_empty.mp h)), if_neg (by simpa using he)]
    refine lr_in fun ch => xr_ite (fun _ => ?_) (fun _ => lr_err)
    exact lr_takeC (by simp) (fun c hc => okc_small (hlow c hc).2) (cstr_nonzero fun c hc => (hlow c hc).1) (fun ch hc => (hlow ch hc).2)

/-- What is known of a handle. -/
def Handle (a : Text) : Prop := (∃ u, a = 0x21 :: u) ∧ ∀ ch ∈ a, ch ≠ 0 ∧ ch < 0x80

theorem lr_tagHandle {f : Nat} {dir : Bool} {start : Mark} :
    LRel o A base [] nullV c c (hTagHandle o f dir start) (scanTagHandle f dir start) (fun v a W d => QC c v a W d ∧ Handle a) := by
  unfold hTagHandle scanTagHandle
  refine lr_orDel (by decide) (fun _ _ _ _ h => h.1.1) ?_
  refine xr_do (lr_sInit (by simp) rfl) ?_
  rintro _ _ _ ⟨rfl, rfl⟩
  refine lr_in fun _ => ?_
  refine lr_peek fun ch => lp_ite (fun hch => ?_) (fun _ => .of lr_err)
  have hch : ch = 0x21 := by simpa using hch
  subst hch
  refine lp_read (s := []) (by simp) rfl ?_
  refine lr_in fun _ => ?_
  refine xr_bind (lr_readWhile (s := [0x21]) (by simp) rfl) ?_
  rintro v a _ _ ⟨⟨u, rfl, hu, rfl⟩, rfl, rfl⟩
  have hlow : ∀ ch ∈ [0x21] ++ u, ch ≠ 0 ∧ ch < 0x80 := by
    intro ch hc
    rcases List.mem_append.mp hc with hc | hc
    · rw [List.mem_singleton.mp hc]; decide
    · have := alpha_low (hu ch hc); omega
  refine lr_peek fun ch => lp_ite (fun hch => lp_last ?_) (fun _ => .of ?_)
  · have hch : ch = 0x21 := by simpa using hch
    subst hch
    have hlow2 : ∀ ch ∈ ([0x21] ++ u) ++ [0x21], ch ≠ 0 ∧ ch < 0x80 := by
      intro ch hc
      rcases List.mem_append.mp hc with hc | hc
      · exact hlow ch hc
      · rw [List.mem_singleton.mp hc]; decide
    refine lp_read (s := [0x21] ++ u) (by simp) rfl ?_
    exact lr_takeC (by simp) (fun c hc => okc_small (hlow2 c hc).2) (cstr_nonzero fun c hc => (hlow2 c hc).1) ⟨⟨u ++ [0x21], by simp⟩, hlow2⟩
  · have hb : textBytes ([0x21] ++ u) = [0x21] ++ textBytes u := by rw [textBytes_append]; rfl
    have fin : LRel o A base [.str] ⟨B ([0x21] ++ u), .null, .null, .null⟩ c c (sTake .str >>= fun s => pure s.start) (pure ([0x21] ++ u))
        (fun v a W d => QC c v a W d ∧ Handle a) :=
      lr_takeC (by simp) (fun c hc => okc_small (hlow c hc).2) (cstr_nonzero fun c hc => (hlow c hc).1) ⟨⟨u, by simp⟩, hlow⟩
    refine xr_do (lr_sByte (t := textBytes ([0x21] ++ u)) (n := 0) (j := 0) (by omega) (by simp) rfl) ?_
    rintro _ _ _ ⟨rfl, rfl, rfl⟩
    refine xr_do (lr_sByte (t := textBytes ([0x21] ++ u)) (n := 0) (j := 1) (by rw [hb]; simp) (by simp) rfl) ?_
    rintro _ _ _ ⟨rfl, rfl, rfl⟩
    have hc : ((textBytes ([0x21] ++ u) ++ [0])[0]'(by simp) == 0x21 && (textBytes ([0x21] ++ u) ++ [0])[1]'(by rw [List.length_append, hb]; simp) == 0) = ([0x21] ++ u == [0x21]) := by
      cases u with
      | nil =>
        have h2 : textBytes ([0x21] ++ []) ++ [0] = [0x21, 0] := by decide
        simp only [h2]
        rfl
      | cons x u =>
        have hx := hlow x (by simp)
        have h1 : ([0x21] ++ x :: u == [0x21]) = false := by simp
        rw [h1]
        have h2 : textBytes ([0x21] ++ x :: u) ++ [0] = 0x21 :: UInt8.ofNat x :: (textBytes u ++ [0]) := by
          show octets 0x21 ++ (octets x ++ textBytes u) ++ [0] = _
          rw [octets_low hx.2]
          rfl
        simp only [h2]
        simp only [List.getElem_cons_zero, List.getElem_cons_succ, Bool.and_eq_false_iff]
        right
        simp only [beq_eq_false_iff_ne, ne_eq]
        intro h
        have := congrArg UInt8.toNat h
        simp at this
        omega
    rw [hc]
    exact xr_ite (fun _ => lr_err) (fun _ => fin)

/-! ### URIs -/

theorem octet_bytes {os : List Nat} (h : Octet1 os) (hlt : ∀ b ∈ os, b < 256) : octets (octetsChar os) = os.map UInt8.ofNat ∧ Okc (octetsChar os) := by
  have tn : ∀ n, n < 256 → (UInt8.ofNat n).toNat = n := fun n hn => by simp [Nat.mod_eq_of_lt hn]
  have hx : octets (octetsChar os) = os.map UInt8.ofNat := by
    by_cases hc : ∃ c, c < 0x200000 ∧ (utf8 c).map UInt8.toNat = os
    · obtain ⟨c, h1, rfl⟩ := hc
      rw [octetsChar_of h1 rfl, octets_utf8 h1, List.map_map]
      conv => lhs; rw [← List.map_id (utf8 c)]
      refine List.map_congr_left fun b _ => ?_
      simp
    · have hv := (octets_cases h).resolve_left hc
      rw [hv]
      unfold octets
      rw [if_neg (by omega), Nat.add_sub_cancel_left]
      cases h with
      | one a h => exact absurd ⟨a, by omega, by unfold utf8; rw [if_pos h]; simp only [List.map_cons, List.map_nil]; rw [tn a (by omega)]⟩ hc
      | more a n os h h1 h2 =>
        have ha := hlt a List.mem_cons_self
        rcases h with ⟨rfl, h⟩ | ⟨rfl, h⟩ | ⟨rfl, h⟩
        · match os, h1, h2 with
          | [b], _, h2 =>
            have hb := h2 b (by simp)
            have e : bigEndian [a, b] = a * 0x100 + b := by simp [bigEndian]
            rw [e]
            unfold rawOctets
            rw [if_neg (by omega), if_neg (by omega)]
            simp only [List.nil_append, List.map_cons, List.map_nil]
            congr 2
            · omega
            · congr 2; omega
        · match os, h1, h2 with
          | [b, c], _, h2 =>
            have hb := h2 b (by simp)
            have hc := h2 c (by simp)
            have e : bigEndian [a, b, c] = (a * 0x100 + b) * 0x100 + c := by simp [bigEndian]
            rw [e]
            unfold rawOctets
            rw [if_neg (by omega), if_pos (by omega)]
            simp only [List.nil_append, List.map_cons, List.map_nil, List.singleton_append]
            have e1 : ((a * 0x100 + b) * 0x100 + c) / 0x10000 % 0x100 = a := by omega
            have e2 : ((a * 0x100 + b) * 0x100 + c) / 0x100 % 0x100 = b := by omega
            have e3 : ((a * 0x100 + b) * 0x100 + c) % 0x100 = c := by omega
            rw [e1, e2, e3]
        · match os, h1, h2 with
          | [b, c, d], _, h2 =>
            have hb := h2 b (by simp)
            have hc := h2 c (by simp)
            have hd := h2 d (by simp)
            have e : bigEndian [a, b, c, d] = ((a * 0x100 + b) * 0x100 + c) * 0x100 + d := by simp [bigEndian]
            rw [e]
            unfold rawOctets
            rw [if_pos (by omega), if_pos (by omega)]
            simp only [List.map_cons, List.map_nil, List.singleton_append, List.cons_append, List.nil_append]
            have e0 : (((a * 0x100 + b) * 0x100 + c) * 0x100 + d) / 0x1000000 = a := by omega
            have e1 : (((a * 0x100 + b) * 0x100 + c) * 0x100 + d) / 0x10000 % 0x100 = b := by omega
            have e2 : (((a * 0x100 + b) * 0x100 + c) * 0x100 + d) / 0x100 % 0x100 = c := by omega
            have e3 : (((a * 0x100 + b) * 0x100 + c) * 0x100 + d) % 0x100 = d := by omega
            rw [e0, e1, e2, e3]
  refine ⟨hx, ?_⟩
  unfold Okc
  rw [hx]
  cases h with
  | one a h =>
    by_cases h0 : a = 0
    · left; subst h0; rfl
    · right
      simp only [List.map_cons, List.map_nil, List.mem_singleton]
      intro h
      have := congrArg UInt8.toNat h
      rw [tn a (by omega)] at this
      exact h0 this.symm
  | more a n os h h1 h2 =>
    right
    rw [List.mem_map]
    rintro ⟨b, hb, h0⟩
    have := congrArg UInt8.toNat h0
    rw [tn b (hlt b hb)] at this
    rcases List.mem_cons.mp hb with rfl | hb
    · simp at this; omega
    · have h3 := h2 b hb
      simp at this; omega

theorem lr_trailing {dir : Bool} {start : Mark} {w n : Nat} {os : List Nat} {t : List UInt8} (hr : Reg.str ∈ D) (hn : w ≤ n)
    (hv : V.get .str = .bytes (t ++ os.map UInt8.ofNat) n) :
    LRel o A base D V c c (hTrailing o dir start w) (scanTrailing dir start w os)
      (fun _ a W d => (∃ u, a = os ++ u ∧ u.length = w ∧ ∀ b ∈ u, 0x80 ≤ b ∧ b < 0xC0) ∧ W = V.set .str (.bytes (t ++ a.map UInt8.ofNat) (n - w)) ∧ c = d) := by
  induction w generalizing V os n with
  | zero => exact xr_pure ⟨⟨[], by simp, rfl, nofun⟩, by rw [Nat.sub_zero, ← hv, RV.set_get], rfl⟩
  | succ w ih =>
    unfold hTrailing scanTrailing
    refine lr_in fun b => xr_ite (fun hb => ?_) (fun _ => lr_err)
    refine xr_do (lr_sStore (n - 1) hr hv (by simp; omega)) ?_
    rintro _ _ _ ⟨rfl, rfl⟩
    refine lr_in fun _ => lr_in fun _ => lr_in fun _ => ?_
    have hb2 : (t ++ os.map UInt8.ofNat) ++ [UInt8.ofNat b] = t ++ (os ++ [b]).map UInt8.ofNat := by simp
    rw [hb2]
    refine xr_post (ih (by omega) (RV.get_same ..)) ?_
    rintro _ a _ _ ⟨⟨u, rfl, hu, hu2⟩, rfl, rfl⟩
    refine ⟨⟨b :: u, by simp, by simp [hu], ?_⟩, ?_, rfl⟩
    · intro x hx
      rcases List.mem_cons.mp hx with rfl | hx
      · exact hb
      · exact hu2 x hx
    · rw [RV.set_set]
      congr 2
      omega

theorem octetWidth_more {b : Nat} {u : List Nat} (hb : octetWidth b ≠ 0) (hu : u.length = octetWidth b - 1) (hu2 : ∀ x ∈ u, 0x80 ≤ x ∧ x < 0xC0) :
    Octet1 ([b] ++ u) ∧ octetWidth b ≤ 4 ∧ b < 256 := by
  unfold octetWidth at *
  by_cases h1 : b < 0x80
  · rw [if_pos h1] at *
    have : u = [] := List.length_eq_zero_iff.mp hu
    subst this
    exact ⟨.one b h1, by omega, by omega⟩
  rw [if_neg h1] at *
  by_cases h2 : 0xC0 ≤ b ∧ b < 0xE0
  · rw [if_pos h2] at *
    exact ⟨.more b 1 u (by omega) hu hu2, by omega, by omega⟩
  rw [if_neg h2] at *
  by_cases h3 : 0xE0 ≤ b ∧ b < 0xF0
  · rw [if_pos h3] at *
    exact ⟨.more b 2 u (by omega) hu hu2, by omega, by omega⟩
  rw [if_neg h3] at *
  by_cases h4 : 0xF0 ≤ b ∧ b < 0xF8
  · rw [if_pos h4] at *
    exact ⟨.more b 3 u (by omega) hu hu2, by omega, by omega⟩
  rw [if_neg h4] at *
  exact absurd rfl hb

theorem lr_escapes {dir : Bool} {start : Mark} {t : List UInt8} (hr : Reg.str ∈ D) (hv : V.get .str = .bytes t 5) :
    LRel o A base D V c c (hUriEscapes o dir start) (scanUriEscapes dir start)
      (fun _ a W d => Okc a ∧ (∃ n, W = V.set .str (.bytes (t ++ octets a) n)) ∧ c = d) := by
  unfold hUriEscapes scanUriEscapes
  refine lr_in fun b => xr_ite (fun _ => lr_err) (fun hb => ?_)
  have hw : octetWidth b ≤ 4 := by unfold octetWidth; split <;> (try split) <;> (try split) <;> (try split) <;> omega
  refine xr_do (lr_sStore 4 hr hv (by simp)) ?_
  rintro _ _ _ ⟨rfl, rfl⟩
  refine lr_in fun _ => lr_in fun _ => lr_in fun _ => ?_
  refine xr_map (lr_trailing (os := [b]) hr (by omega : octetWidth b - 1 ≤ 4) (RV.get_same ..)) ?_
  rintro _ a _ _ ⟨⟨u, rfl, hu, hu2⟩, rfl, rfl⟩
  obtain ⟨h1, _, h2⟩ := octetWidth_more hb hu hu2
  obtain ⟨h3, h4⟩ := octet_bytes h1 (by
    intro x hx
    rcases List.mem_append.mp hx with hx | hx
    · rw [List.mem_singleton.mp hx]; exact h2
    · have := hu2 x hx; omega)
  exact ⟨h4, ⟨_, by rw [RV.set_set, h3]⟩, rfl⟩

theorem lr_uriLoop {uc dir : Bool} {start : Mark} {f len n : Nat} {s : Text} (hr : Reg.str ∈ D) (hv : V.get .str = .bytes (textBytes s) n) :
    LRel o A base D V c c (hUriLoop o uc dir start f len) (scanUriLoop uc dir start f s)
      (fun v a W d => (∃ u, a = s ++ u ∧ v = len + u.length ∧ ∀ ch ∈ u, Okc ch) ∧ (∃ n, W = V.set .str (.bytes (textBytes a) n)) ∧ c = d) := by
  induction f generalizing V s n len with
  | zero => exact xr_fuel
  | succ f ih =>
    unfold hUriLoop scanUriLoop
    refine lr_peek fun ch => lp_ite (fun hu => lp_ite (fun _ => .of ?_) (fun _ => ?_)) (fun _ => .of ?_)
    · refine xr_do (lr_sRoom hr hv) ?_
      rintro _ _ _ ⟨rfl, rfl⟩
      refine xr_bind (lr_escapes hr (RV.get_same ..)) ?_
      rintro _ a _ _ ⟨hok, ⟨k, rfl⟩, rfl⟩
      refine lr_in fun _ => ?_
      refine xr_post (ih (s := s ++ [a]) (n := k) (by rw [RV.get_same, textBytes_append, textBytes_one])) ?_
      rintro v _ _ _ ⟨⟨u, rfl, rfl, hu⟩, ⟨j, rfl⟩, rfl⟩
      refine ⟨⟨a :: u, by simp, by simp; omega, ?_⟩, ⟨j, ?_⟩, rfl⟩
      · intro x hx
        rcases List.mem_cons.mp hx with rfl | hx
        · exact hok
        · exact hu x hx
      · simp only [RV.set_set]
    · refine lp_read hr hv ?_
      refine lr_in fun _ => ?_
      refine xr_post (ih (RV.get_same ..)) ?_
      rintro v _ _ _ ⟨⟨u, rfl, rfl, hu2⟩, ⟨j, rfl⟩, rfl⟩
      refine ⟨⟨ch :: u, by simp, by simp; omega, ?_⟩, ⟨j, by rw [RV.set_set]⟩, rfl⟩
      intro x hx
      rcases List.mem_cons.mp hx with rfl | hx
      · refine okc_small ?_
        simp [isUri, isAlpha] at hu
        omega
      · exact hu2 x hx
    · exact xr_pure ⟨⟨[], by simp, rfl, nofun⟩, ⟨n, by rw [← hv, RV.set_get]⟩, rfl⟩

/-- The text already scanned as a handle, or `NULL`. -/
def HeadAt (hd : Text) (p : Ptr) (b : Blocks) : Prop := (hd = [] ∧ p = none ∧ b = []) ∨ (CStr hd p b ∧ Handle hd)

theorem hw_cString {a : Text} {p : Ptr} {b bs : Blocks} {h : Heap} {Q : List UInt8 → Heap → Prop} (hs : CStr a p b) (e : Ext A base bs h) (hb : b ⊆ bs)
    (hQ : Q (textBytes a) h) : hw (cString p) Q h := by
  obtain ⟨q, mem, rfl, rfl, hz, hm⟩ := hs
  unfold cString
  rw [hw_bind]
  refine hw_bufOf (mem := mem) e (hb List.mem_cons_self) ?_
  rw [hw_bind]
  refine hw_strlen hz ?_
  refine hw_bytesOf ?_ ?_
  · exact List.IsPrefix.length_le (List.takeWhile_prefix _)
  · rw [← hm] at hQ
    have : mem.take (cbytes mem).length = cbytes mem := by
      have h1 : mem = cbytes mem ++ mem.dropWhile (· != 0) := List.takeWhile_append_dropWhile.symm
      conv => lhs; arg 2; rw [h1]
      exact List.take_left
    rw [this]
    exact hQ

theorem lr_tagUri {f : Nat} {uc dir : Bool} {start : Mark} {hd : Text} {p : Ptr} {b : Blocks} (hh : HeadAt hd p b) (hb : b ⊆ c) :
    LRel o A base [] nullV c c (hTagUri o f uc dir p start) (scanTagUri f uc dir hd start) (QC c) := by
  unfold hTagUri scanTagUri
  refine lr_orDel (by decide) (fun _ _ _ _ h => h.1) ?_
  refine xr_lift (R := fun v d => v = textBytes hd ∧ c = d) ?_ ?_
  · intro b' h e
    unfold headBytes
    rw [hw_ite]
    rcases hh with ⟨rfl, rfl, rfl⟩ | ⟨h1, h2⟩
    · rw [if_pos (by rfl), hw_pure]
      exact ⟨c, e, rfl, rfl⟩
    · have hp : p.isNone = false := by obtain ⟨q, mem, rfl, _⟩ := h1; rfl
      rw [if_neg (by simp [hp])]
      exact hw_cString h1 e (fun x hx => List.mem_append_right _ (hb hx)) ⟨c, e, rfl, rfl⟩
  rintro _ _ ⟨rfl, rfl⟩
  have hlow : ∀ ch ∈ hd, ch < 0x80 := by
    rcases hh with ⟨rfl, _⟩ | ⟨_, _, h⟩
    · nofun
    · exact fun ch hc => (h ch hc).2
  refine xr_do (lr_sInit (by simp) rfl) ?_
  rintro _ _ _ ⟨rfl, rfl⟩
  refine xr_do (lr_sGrow (t := []) (n := 0) (by simp) rfl (by omega) (by omega)) ?_
  rintro _ _ _ ⟨rfl, rfl⟩
  have hif : LRel o A base [.str] ((nullV.set .str (.bytes [] 0)).set .str (.bytes [] (textBytes hd).length)) c c
      (if 1 < (textBytes hd).length then sStore .str ((textBytes hd).drop 1) else return () : HL Unit) (pure () : Lex Unit)
      (fun _ _ W d => (∃ n, W = nullV.set .str (.bytes (textBytes hd.tail) n)) ∧ c = d) := by
    have hd1 : (textBytes hd).drop 1 = textBytes hd.tail := by
      cases hd with
      | nil => rfl
      | cons x t =>
        show (octets x ++ textBytes t).drop 1 = _
        rw [octets_low (hlow x List.mem_cons_self)]
        rfl
    by_cases hl : 1 < (textBytes hd).length
    · rw [if_pos hl]
      refine xr_post (lr_sStore (t := []) 0 (by simp) (RV.get_same ..) (by simp)) ?_
      rintro _ _ _ _ ⟨rfl, rfl⟩
      exact ⟨⟨0, by rw [RV.set_set, RV.set_set, List.nil_append, hd1]⟩, rfl⟩
    · rw [if_neg hl]
      refine xr_pure ⟨⟨(textBytes hd).length, ?_⟩, rfl⟩
      rw [RV.set_set, ← hd1, List.drop_eq_nil_of_le (by omega)]
  refine xr_do hif ?_
  rintro _ _ _ ⟨⟨n, rfl⟩, rfl⟩
  refine lr_in fun _ => ?_
  refine xr_bind (lr_uriLoop (by simp) (RV.get_same ..)) ?_
  rintro v _ _ _ ⟨⟨u, rfl, rfl, hu⟩, ⟨k, rfl⟩, rfl⟩
  have hemp : ((textBytes hd).length + u.length = 0) = ((hd.isEmpty && (hd.tail ++ u).isEmpty) = true) := by
    rw [eq_iff_iff, Bool.and_eq_true, List.isEmpty_iff, List.isEmpty_iff]
    constructor
    · intro h
      have h1 := textBytes_empty.mp (by omega : (textBytes hd).length = 0)
      have h2 := List.length_eq_zero_iff.mp (by omega : u.length = 0)
      subst h1 h2
      exact ⟨rfl, rfl⟩
    · rintro ⟨rfl, h⟩
      simp at h
      subst h
      rfl
  by_cases he : (textBytes hd).length + u.length = 0
  · rw [if_pos he, if_pos (by rw [← hemp]; exact he)]
    refine xr_do (lr_sRoom (by simp) (RV.get_same ..)) ?_
    rintro _ _ _ ⟨rfl, rfl⟩
    exact lr_err
  · rw [if_neg he, if_neg (by rw [← hemp]; exact he)]
    refine xr_post (lr_takeC (P := fun _ => True) (by simp) ?_ rfl trivial) (fun _ _ _ _ h => h.1)
    intro ch hc
    rcases List.mem_append.mp hc with hc | hc
    · exact okc_small (hlow ch (List.mem_of_mem_tail hc))
    · exact hu ch hc

/-- A token in memory. Scalars keep their NUL characters. -/
def TokMem : TokData → HTokData → Blocks → Prop
  | .tagDirective d, t, b => ∃ p q x y, t = .tagDirective p q ∧ CStr d.handle p x ∧ CStr d.pfx q y ∧ b = x ++ y
  | .alias a, t, b => ∃ p, t = .alias p ∧ CStr a p b
  | .anchor a, t, b => ∃ p, t = .anchor p ∧ CStr a p b
  | .tag h s, t, b => ∃ p q x y, t = .tag p q ∧ CStr h p x ∧ CStr s q y ∧ b = x ++ y
  | .scalar v st, t, b => ∃ a k, t = .scalar (some a) (textBytes v).length st ∧ 0 < k ∧ b = [(a, .bytes (textBytes v ++ List.replicate k 0))]
  | d, t, b => t = .plain d ∧ b = []

/-- The token on the heap, the token on values, and the blocks that the former owns. -/
def SameToken (v : HToken) (a : Token) (b : Blocks) : Prop := TokMem a.data v.data b ∧ v.start = a.start ∧ v.stop = a.stop

/-- A token was returned. -/
def QT (c : Blocks) (v : HToken) (a : Token) (W : RV) (d : Blocks) : Prop :=
  W = nullV ∧ ∃ b, TokMem a.data v.data b ∧ v.start = a.start ∧ v.stop = a.stop ∧ d.Perm (b ++ c)

theorem lr_now {k : Mark → HL β'} {y : Mark → Lex α'} {Q : β' → α' → RV → Blocks → Prop} (h : ∀ a, LRel o A base D V c keep (k a) (y a) Q) :
    LRel o A base D V c keep (xget LX.mark >>= k) (get >>= y) Q := lr_get (f := id) h

theorem lr_nomem {Q : β → α → RV → Blocks → Prop} {x : Lex α} {e : Option Fail} (he : e = none ∨ e = some .memory) (ha : ¬ A) :
    LRel o A base D V c c (xfail e) x Q := by
  rintro s t inp b h hr ex sane
  exact ⟨⟨V, _, _, b, hr, ex⟩, .inr ⟨he, fun a => absurd a ha⟩⟩

theorem clean_cstr {a : Text} {p : Ptr} {b : Blocks} (hs : CStr a p b) (bs : Blocks) (h : Heap) (e : Ext A base (b ++ bs) h) :
    hw (free p) (fun _ h' => Ext A base bs h') h := by
  obtain ⟨q, mem, rfl, rfl, _⟩ := hs
  exact clean_str bs h e

theorem clean_pair {a a' : Text} {p p' : Ptr} {b b' : Blocks} (hs : CStr a p b) (hs' : CStr a' p' b') (bs : Blocks) (h : Heap)
    (e : Ext A base ((b ++ b') ++ bs) h) : hw (do free p; free p') (fun _ h' => Ext A base bs h') h := by
  rw [List.append_assoc] at e
  rw [hw_bind]
  exact hw_mono (clean_cstr hs _ h e) (fun _ h' e => clean_cstr hs' bs h' e)

/-- A pointer is freed on the way. -/
theorem lr_free {a : Text} {p : Ptr} {b rest : Blocks} {k : Unit → HL β} {x : Lex α} {Q : β → α → RV → Blocks → Prop} (hs : CStr a p b) (hp : c.Perm (b ++ rest))
    (h : LRel o A base D V rest keep (k ()) x Q) : LRel o A base D V c keep (xlift (free p) >>= k) x Q := by
  refine xr_lift (R := fun _ d => rest = d) ?_ ?_
  · intro b' hh e
    refine hw_mono (clean_cstr hs (b' ++ rest) hh (e.perm ?_)) (fun _ h' e => ⟨rest, e, rfl⟩)
    have := List.Perm.append_left b' hp
    refine this.trans ?_
    rw [← List.append_assoc, ← List.append_assoc]
    exact List.Perm.append_right rest List.perm_append_comm
  · rintro _ _ rfl
    exact h

theorem lr_tagDirValue {f : Nat} {start : Mark} :
    LRel o A base [] nullV c c (hTagDirValue o f start) (scanTagDirValue f start)
      (fun v a W d => W = nullV ∧ ∃ x y, CStr a.handle v.1 x ∧ CStr a.pfx v.2 y ∧ d = y ++ (x ++ c)) := by
  unfold hTagDirValue scanTagDirValue
  refine lr_in fun _ => lr_in fun _ => ?_
  refine xr_bind lr_tagHandle ?_
  rintro v a _ _ ⟨⟨rfl, x, hx, rfl⟩, hh⟩
  refine xr_orFree (l := x) (keep' := x ++ c) ?_ (List.Perm.refl _) (clean_cstr hx)
  refine lr_in fun _ => lr_in fun _ => xr_ite (fun _ => ?_) (fun _ => lr_err)
  refine lr_in fun _ => ?_
  refine xr_bind (lr_tagUri (.inl ⟨rfl, rfl, rfl⟩) (by simp)) ?_
  rintro v' a' _ _ ⟨rfl, y, hy, rfl⟩
  refine xr_orFree (l := y) (keep' := y ++ (x ++ c)) ?_ (List.Perm.refl _) (clean_cstr hy)
  refine lr_in fun _ => lr_in fun _ => xr_ite (fun _ => ?_) (fun _ => lr_err)
  exact xr_pure ⟨rfl, x, y, hx, hy, rfl⟩

theorem lr_directive {f : Nat} : LRel o A base [] nullV c c (hDirective o f) (scanDirective f) (QT c) := by
  unfold hDirective scanDirective
  refine lr_now fun start => lr_in fun _ => ?_
  refine xr_bind lr_name ?_
  rintro v a _ _ ⟨⟨rfl, x, hx, rfl⟩, hlow⟩
  refine xr_orFree (l := x) (keep' := x ++ c) ?_ (List.Perm.refl _) (clean_cstr hx)
  refine xr_lift (R := fun v d => v = textBytes a ∧ x ++ c = d) (fun b' h e => hw_cString hx e (by simp) ⟨_, e, rfl, rfl⟩) ?_
  rintro _ _ ⟨rfl, rfl⟩
  have cmp : ∀ s : Text, (∀ ch ∈ s, ch < 0x80) → (textBytes a == textBytes s) = (a == s) := by
    intro s hs
    rw [Bool.eq_iff_iff, beq_iff_eq, beq_iff_eq]
    exact ⟨textBytes_inj hlow hs, fun h => by rw [h]⟩
  have e1 := cmp (lit ['Y', 'A', 'M', 'L']) (by decide)
  have e2 := cmp (lit ['T', 'A', 'G']) (by decide)
  have b1 : textBytes (lit ['Y', 'A', 'M', 'L']) = [0x59, 0x41, 0x4D, 0x4C] := by decide
  have b2 : textBytes (lit ['T', 'A', 'G']) = [0x54, 0x41, 0x47] := by decide
  rw [b1] at e1
  rw [b2] at e2
  rw [e1, e2]
  refine xr_ite (fun _ => ?_) (fun _ => xr_ite (fun _ => ?_) (fun _ => lr_err))
  · refine lr_in fun ver => lr_now fun stop => lr_in fun _ => ?_
    refine lr_free hx (List.Perm.refl _) ?_
    exact xr_pure ⟨rfl, [], ⟨rfl, rfl⟩, rfl, rfl, List.Perm.refl _⟩
  · refine xr_bind lr_tagDirValue ?_
    rintro v' a' _ _ ⟨rfl, y, z, hy, hz, rfl⟩
    refine lr_now fun stop => ?_
    refine xr_bind (xr_orFree (l := z ++ y) (keep' := z ++ (y ++ (x ++ c))) lr_hin (by simp) (clean_pair hz hy)) ?_
    rintro _ _ _ _ ⟨_, rfl, rfl⟩
    refine lr_free (rest := z ++ (y ++ c)) hx (by blocks) ?_
    exact xr_pure ⟨rfl, y ++ z, ⟨_, _, y, z, rfl, hy, hz, rfl⟩, rfl, rfl, by blocks⟩

theorem lr_anchor {f : Nat} {anchor : Bool} : LRel o A base [] nullV c c (hAnchorToken o f anchor) (scanAnchor f anchor) (QT c) := by
  unfold hAnchorToken scanAnchor
  refine lr_orDel (by decide) (fun _ _ _ _ h => h.1) ?_
  refine xr_do (lr_sInit (by simp) rfl) ?_
  rintro _ _ _ ⟨rfl, rfl⟩
  refine lr_now fun start => lr_in fun _ => lr_in fun _ => ?_
  refine xr_bind (lr_readWhile (s := []) (by simp) rfl) ?_
  rintro v a _ _ ⟨⟨u, hau, hu, rfl⟩, rfl, rfl⟩
  rw [List.nil_append] at hau
  subst hau
  have hlow : ∀ ch ∈ a, ch ≠ 0 ∧ ch < 0x80 := fun ch hc => by have := alpha_low (hu ch hc); omega
  refine lr_now fun stop => lr_in fun ch => ?_
  have he : (0 + a.length != 0) = !a.isEmpty := by cases a <;> rfl
  rw [he]
  refine xr_ite (fun _ => ?_) (fun _ => lr_err)
  refine xr_do (lr_sTake (t := textBytes a) (n := 0) (by simp) rfl) ?_
  rintro _ _ _ ⟨rfl, p, k, rfl, hk, rfl⟩
  obtain ⟨h1, h2⟩ := cbytes_text (k := k) (fun c hc => okc_small (hlow c hc).2) (by omega)
  rw [cstr_nonzero fun c hc => (hlow c hc).1] at h2
  have hc : CStr a (some p) [(p, .bytes (textBytes a ++ List.replicate k 0))] := ⟨p, _, rfl, rfl, h1, h2⟩
  refine xr_pure ⟨rfl, [(p, .bytes (textBytes a ++ List.replicate k 0))], ?_, rfl, rfl, List.Perm.refl _⟩
  cases anchor <;> exact ⟨_, rfl, hc⟩

theorem hw_isHandle {a : Text} {p : Ptr} {b bs : Blocks} {h : Heap} {Q : Bool → Heap → Prop} (hs : CStr a p b) (ha : Handle a) (e : Ext A base bs h) (hb : b ⊆ bs)
    (hQ : Q (a.head? == some 0x21 && a.length != 1 && a.getLast? == some 0x21) h) : hw (isHandle p) Q h := by
  obtain ⟨q, mem, rfl, rfl, hz, hm⟩ := hs
  obtain ⟨⟨u, rfl⟩, hlow⟩ := ha
  unfold isHandle
  rw [hw_bind]
  refine hw_bufOf (mem := mem) e (hb List.mem_cons_self) ?_
  rw [hw_bind]
  refine hw_strlen hz ?_
  rw [hm]
  have ht := textBytes_low (fun c hc => (hlow c hc).2)
  have hd : ∃ r, mem = textBytes (0x21 :: u) ++ 0 :: r := by
    rw [← hm]
    clear hm hb hQ e
    induction mem with
    | nil => cases hz
    | cons y r ih =>
      by_cases hy : y = 0
      · exact ⟨r, by subst hy; rfl⟩
      · obtain ⟨r', h'⟩ := ih ((List.mem_cons.mp hz).resolve_left (fun h => hy h.symm))
        refine ⟨r', ?_⟩
        unfold cbytes at h' ⊢
        rw [List.takeWhile_cons, if_pos (by simpa using hy), List.cons_append, ← h']
  obtain ⟨r, hd⟩ := hd
  rw [ht] at hd ⊢
  subst hd
  have e0 : ((0x21 :: u).map UInt8.ofNat ++ 0 :: r)[0]? = some 0x21 := rfl
  rw [e0]
  rcases List.eq_nil_or_concat u with rfl | ⟨w, l, rfl⟩
  · exact hQ
  · rw [List.concat_eq_append] at *
    have hne : ∃ x v, w ++ [l] = x :: v := by cases w <;> exact ⟨_, _, rfl⟩
    obtain ⟨x, v, hv⟩ := hne
    have el : ((0x21 :: (w ++ [l])).map UInt8.ofNat ++ 0 :: r)[((0x21 :: (w ++ [l])).map UInt8.ofNat).length - 1]? = some (UInt8.ofNat l) := by
      rw [List.getElem?_append_left (by simp)]
      simp [List.getElem?_append]
    rw [el]
    have e1 : ((0x21 :: (w ++ [l])).map UInt8.ofNat ++ 0 :: r)[1]? = some (UInt8.ofNat x) := by rw [hv]; rfl
    rw [e1]
    have hx := hlow x (by rw [hv]; simp)
    have hl := hlow l (by simp)
    have tn : ∀ n, n < 0x80 → (UInt8.ofNat n).toNat = n := fun n hn => by simp [Nat.mod_eq_of_lt (by omega : n < 256)]
    have x0 : (UInt8.ofNat x != 0) = true := by
      rw [bne_iff_ne]
      intro h
      have := congrArg UInt8.toNat h
      rw [tn x hx.2] at this
      exact hx.1 this
    have l0 : (UInt8.ofNat l == 0x21) = (l == 0x21) := by
      rw [Bool.eq_iff_iff, beq_iff_eq, beq_iff_eq]
      constructor
      · intro h
        have := congrArg UInt8.toNat h
        rw [tn l hl.2] at this
        exact this
      · rintro rfl; rfl
    have g1 : ((0x21 :: (w ++ [l]) : Text).head? == some 0x21 && (0x21 :: (w ++ [l]) : Text).length != 1 && (0x21 :: (w ++ [l]) : Text).getLast? == some 0x21) = (l == 0x21) := by
      have h1 : (0x21 :: (w ++ [l]) : Text).getLast? = some l := by rw [← List.cons_append, List.getLast?_concat]
      have h2 : ((0x21 :: (w ++ [l]) : Text).length != 1) = true := by simp
      rw [h1, h2]
      simp
    rw [g1] at hQ
    show Q (0x21 == 0x21 && UInt8.ofNat x != 0 && UInt8.ofNat l == 0x21) h
    rw [x0, l0]
    exact hQ

/-- Handle and suffix were returned. -/
def QD (c : Blocks) (v : Ptr × Ptr) (a : Text × Text) (W : RV) (d : Blocks) : Prop :=
  W = nullV ∧ ∃ x y, CStr a.1 v.1 x ∧ CStr a.2 v.2 y ∧ d.Perm ((x ++ y) ++ c)

theorem lr_malloc {ob : Obj} {k : Ptr → HL β} {x : Lex α} {Q : β → α → RV → Blocks → Prop} (h0 : ¬ A → LRel o A base D V c keep (k none) x Q)
    (h1 : ∀ p, LRel o A base D V ((p, ob) :: c) keep (k (some p)) x Q) : LRel o A base D V c keep (xlift (malloc ob) >>= k) x Q := by
  refine xr_lift (R := fun v d => (v = none ∧ ¬ A ∧ c = d) ∨ ∃ p, v = some p ∧ d = (p, ob) :: c) ?_ ?_
  · intro b' hh e
    exact hw_malloc e (fun h' e ha => ⟨c, e, .inl ⟨rfl, ha, rfl⟩⟩) (fun h' p e => ⟨_, e.perm List.perm_middle.symm, .inr ⟨p, rfl, rfl⟩⟩)
  · rintro _ _ (⟨rfl, ha, rfl⟩ | ⟨p, rfl, rfl⟩)
    · exact h0 ha
    · exact h1 p

theorem lr_tagBody {f : Nat} {start : Mark} : LRel o A base [] nullV c c (hTagBody o f start) (scanTagBody f start) (QD c) := by
  unfold hTagBody scanTagBody
  refine lr_in fun _ => lr_in fun ch => xr_ite (fun _ => ?_) (fun _ => ?_)
  · refine lr_malloc (fun ha => ?_) (fun p => ?_)
    · rw [if_pos (by rfl)]
      exact lr_nomem (.inl rfl) ha
    · rw [if_neg (by simp)]
      have hx : CStr [] (some p) [(p, .bytes [0])] := ⟨p, _, rfl, rfl, by simp, rfl⟩
      refine xr_orFree (l := [(p, .bytes [0])]) (keep' := (p, .bytes [0]) :: c) ?_ (List.Perm.refl _) (clean_cstr hx)
      refine lr_in fun _ => lr_in fun _ => ?_
      refine xr_bind (lr_tagUri (.inl ⟨rfl, rfl, rfl⟩) (by simp)) ?_
      rintro v' a' _ _ ⟨rfl, y, hy, rfl⟩
      refine xr_orFree (l := y) (keep' := y ++ (p, .bytes [0]) :: c) ?_ (List.Perm.refl _) (clean_cstr hy)
      refine lr_in fun _ => xr_ite (fun _ => ?_) (fun _ => lr_err)
      refine lr_in fun _ => ?_
      exact xr_pure ⟨rfl, _, y, hx, hy, by blocks⟩
  · refine xr_bind lr_tagHandle ?_
    rintro v a _ _ ⟨⟨rfl, x, hx, rfl⟩, hh⟩
    refine xr_lift (R := fun v d => v = (a.head? == some 0x21 && a.length != 1 && a.getLast? == some 0x21) ∧ x ++ c = d)
      (fun b' h e => hw_isHandle hx hh e (by simp) ⟨_, e, rfl, rfl⟩) ?_
    rintro _ _ ⟨rfl, rfl⟩
    refine xr_ite (fun _ => ?_) (fun _ => ?_)
    · refine xr_bind (xr_orFree (l := x) (keep' := x ++ c) (lr_tagUri (.inl ⟨rfl, rfl, rfl⟩) (by simp)) (List.Perm.refl _) (clean_cstr hx)) ?_
      rintro v' a' _ _ ⟨rfl, y, hy, rfl⟩
      exact xr_pure ⟨rfl, x, y, hx, hy, by blocks⟩
    · refine xr_bind (xr_orFree (l := x) (keep' := x ++ c) (lr_tagUri (.inr ⟨hx, hh⟩) (by simp)) (List.Perm.refl _) (clean_cstr hx)) ?_
      rintro v' a' _ _ ⟨rfl, y, hy, rfl⟩
      refine lr_free (rest := y ++ c) hx (by blocks) ?_
      refine lr_malloc (fun ha => ?_) (fun p => ?_)
      · rw [if_pos (by rfl)]
        exact xr_orFree (l := y) (keep' := y ++ c) (lr_nomem (.inl rfl) ha) (List.Perm.refl _) (clean_cstr hy)
      · rw [if_neg (by simp)]
        have hz : CStr [0x21] (some p) [(p, .bytes [0x21, 0])] := ⟨p, _, rfl, rfl, by decide, by decide⟩
        obtain ⟨q, mem, rfl, rfl, hm0, hm⟩ := hy
        refine xr_lift (R := fun v d => v = mem ∧ (p, .bytes [0x21, 0]) :: ([(q, .bytes mem)] ++ c) = d)
          (fun b' h e => hw_bufOf (mem := mem) e (by simp) ⟨_, e, rfl, rfl⟩) ?_
        rintro _ _ ⟨rfl, rfl⟩
        rename_i mem
        cases mem with
        | nil => cases hm0
        | cons y r =>
          show LRel o A base [] nullV _ c (if y == 0 then pure (some q, some p) else pure (some p, some q)) _ _
          have hc : (y == 0) = a'.isEmpty := by
            rw [Bool.eq_iff_iff, beq_iff_eq, List.isEmpty_iff, ← textBytes_empty, ← hm]
            unfold cbytes
            rw [List.takeWhile_cons]
            by_cases hy : y = 0
            · simp [hy]
            · simp [hy]
          rw [hc]
          refine xr_ite (fun h => ?_) (fun _ => ?_)
          · rw [List.isEmpty_iff] at h
            subst h
            exact xr_pure ⟨rfl, [(q, .bytes (y :: r))], [(p, .bytes [0x21, 0])], ⟨q, _, rfl, rfl, hm0, hm⟩, hz, by blocks⟩
          · exact xr_pure ⟨rfl, [(p, .bytes [0x21, 0])], [(q, .bytes (y :: r))], hz, ⟨q, _, rfl, rfl, hm0, hm⟩, by blocks⟩

theorem lr_tag {f : Nat} {flow : Bool} : LRel o A base [] nullV c c (hTagToken o f flow) (scanTag f flow) (QT c) := by
  unfold hTagToken scanTag
  refine lr_now fun start => ?_
  refine xr_bind lr_tagBody ?_
  rintro v a _ d ⟨rfl, x, y, hx, hy, hp⟩
  refine xr_orFree (l := x ++ y) (keep' := d) ?_ hp (clean_pair hx hy)
  refine lr_in fun _ => lr_in fun _ => xr_ite (fun _ => ?_) (fun _ => lr_err)
  refine lr_now fun stop => ?_
  exact xr_pure ⟨rfl, x ++ y, ⟨_, _, x, y, rfl, hx, hy, rfl⟩, rfl, rfl, hp⟩

end LibYaml
