import Verif.Spec.Octets

/-!
# The octets of the strings in memory
-/

namespace LibYaml

open Spec

theorem octets_utf8 {c : Nat} (h : c < 0x200000) : octets c = utf8 c := by unfold octets; rw [if_pos h]

theorem textBytes_utf8s {t : List Nat} (h : ∀ c ∈ t, c < 0x200000) : textBytes t = utf8s t := by
  induction t with
  | nil => simp [textBytes, utf8s]
  | cons c t ih =>
    have ih := ih fun x hx => h x (List.mem_cons_of_mem _ hx)
    unfold textBytes utf8s at *
    rw [List.flatMap_cons, List.flatMap_cons, octets_utf8 (h c List.mem_cons_self), ih]

theorem textBytes_append (a b : List Nat) : textBytes (a ++ b) = textBytes a ++ textBytes b := List.flatMap_append

theorem octets_low {c : Nat} (h : c < 0x80) : octets c = [UInt8.ofNat c] := by
  rw [octets_utf8 (by omega)]
  unfold utf8
  rw [if_pos h]

theorem octets_long {c : Nat} (h : 0x80 ≤ c) : ∃ a b r, octets c = a :: b :: r := by
  unfold octets
  split
  · unfold utf8
    rw [if_neg (by omega)]
    split
    · exact ⟨_, _, _, rfl⟩
    · split <;> exact ⟨_, _, _, rfl⟩
  · unfold rawOctets
    split <;> split <;> exact ⟨_, _, _, rfl⟩

theorem octets_ne_nil (c : Nat) : octets c ≠ [] := by
  by_cases h : c < 0x80
  · rw [octets_low h]; simp
  · obtain ⟨a, b, r, e⟩ := octets_long (by omega : 0x80 ≤ c)
    rw [e]; simp

theorem overlong_high {bs : List UInt8} (h : Overlong bs) : ∀ b ∈ bs, 0x80 ≤ b.toNat := by
  unfold Overlong at h
  split at h
  · obtain ⟨h1, h2⟩ := h
    simp only [List.mem_cons, List.not_mem_nil, or_false, forall_eq_or_imp, forall_eq]
    exact ⟨by rcases h1 with rfl | rfl <;> decide, h2.1⟩
  · obtain ⟨rfl, h2, _, h3⟩ := h
    simp only [List.mem_cons, List.not_mem_nil, or_false, forall_eq_or_imp, forall_eq]
    exact ⟨by decide, h2.1, h3.1⟩
  · obtain ⟨rfl, h2, _, h3, h4⟩ := h
    simp only [List.mem_cons, List.not_mem_nil, or_false, forall_eq_or_imp, forall_eq]
    exact ⟨by decide, h2.1, h3.1, h4.1⟩
  · exact h.elim

theorem octets_all_high {c : Nat} (h0 : 0x80 ≤ c) (h1 : Storable c) : ∀ b ∈ octets c, 0x80 ≤ b.toNat := by
  rcases h1 with h1 | h1
  · have tn : ∀ n, n < 256 → (UInt8.ofNat n).toNat = n := fun n hn => by simp [Nat.mod_eq_of_lt hn]
    rw [octets_utf8 h1]
    unfold utf8
    rw [if_neg (by omega)]
    intro b hb
    split at hb
    · simp only [List.mem_cons, List.not_mem_nil, or_false] at hb
      rcases hb with rfl | rfl <;> rw [tn _ (by omega)] <;> omega
    · split at hb
      · simp only [List.mem_cons, List.not_mem_nil, or_false] at hb
        rcases hb with rfl | rfl | rfl <;> rw [tn _ (by omega)] <;> omega
      · simp only [List.mem_cons, List.not_mem_nil, or_false] at hb
        rcases hb with rfl | rfl | rfl | rfl <;> rw [tn _ (by omega)] <;> omega
  · exact overlong_high h1.2

theorem octets_ne_zero {c : Nat} (h0 : c ≠ 0) (h1 : Storable c) : (0 : UInt8) ∉ octets c := by
  intro hm
  by_cases h : c < 0x80
  · rw [octets_low h] at hm
    simp only [List.mem_cons, List.not_mem_nil, or_false] at hm
    have := congrArg UInt8.toNat hm
    simp at this
    omega
  · have := octets_all_high (by omega) h1 0 hm
    simp at this

theorem octets_high {c : Nat} (h0 : 0x80 ≤ c) (h1 : Storable c) : ∃ b r, octets c = b :: r ∧ 0x80 ≤ b.toNat := by
  obtain ⟨a, b, r, e⟩ := octets_long h0
  exact ⟨a, b :: r, e, octets_all_high h0 h1 a (by rw [e]; simp)⟩

end LibYaml
