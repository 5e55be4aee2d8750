import Verif.Proofs.Yields

/-!
# The position follows the text

Every operation of the lexers advances the index by as many characters as it takes from the text.
-/

namespace LibYaml

open Spec

/-- The index and the rest of the text fit together. -/
def Tracks {α : Type} (p : Lex α) : Prop :=
  ∀ m cs a m' cs', Yields p m cs a m' cs' → m'.index + cs'.length = m.index + cs.length

variable {α β : Type}

theorem tracks_bind {p : Lex α} {f : α → Lex β} (hp : Tracks p) (hf : ∀ a, Tracks (f a)) : Tracks (p >>= f) := by
  intro m cs b m' cs' h
  rw [y_bind] at h
  obtain ⟨a, m1, cs1, h1, h2⟩ := h
  exact (hf a _ _ _ _ _ h2).trans (hp _ _ _ _ _ h1)

theorem tracks_pure {a : α} : Tracks (pure a : Lex α) := by
  intro m cs b m' cs' h
  rw [y_pure] at h
  obtain ⟨_, rfl, rfl⟩ := h
  rfl

theorem tracks_get : Tracks (get : Lex Mark) := by
  intro m cs b m' cs' h
  rw [y_get] at h
  obtain ⟨_, rfl, rfl⟩ := h
  rfl

theorem tracks_ite {c : Prop} [Decidable c] {p q : Lex α} (hp : Tracks p) (hq : Tracks q) : Tracks (if c then p else q) := by
  split
  · exact hp
  · exact hq

theorem tracks_err {ctx : Option String} {cm : Mark} {pb : String} : Tracks (lexErr ctx cm pb : Lex α) := by
  intro m cs b m' cs' h
  exact absurd h y_err

theorem tracks_fuel : Tracks (fun _ => .fail .fuel : Lex α) := by
  intro m cs b m' cs' h
  exact absurd h y_fuel

theorem tracks_cache {n : Nat} : Tracks (cacheC n) := by
  intro m cs b m' cs' h
  unfold Yields cacheC Prog.go at h
  split at h
  · cases h
  · cases h; rfl

theorem tracks_peek {j : Nat} : Tracks (peekC j) := by
  intro m cs b m' cs' h
  rw [y_peek] at h
  obtain ⟨_, _, rfl, rfl⟩ := h
  rfl

theorem tracks_skipC : Tracks skipC := by
  intro m cs b m' cs' h
  rw [y_skipC] at h
  obtain ⟨c, rfl, rfl⟩ := h
  simp; omega

theorem tracks_readC {s : Text} : Tracks (readC s) := tracks_bind tracks_peek fun _ => tracks_bind tracks_skipC fun _ => tracks_pure

theorem tracks_skipWhile {p : Nat → Bool} {n : Nat} : Tracks (skipWhile p n) := by
  induction n with
  | zero => exact tracks_fuel
  | succ n ih => exact tracks_bind tracks_peek fun _ => tracks_ite (tracks_bind tracks_skipC fun _ => tracks_bind tracks_cache fun _ => ih) tracks_pure

theorem tracks_readWhile {p : Nat → Bool} {n : Nat} {s : Text} : Tracks (readWhile p n s) := by
  induction n generalizing s with
  | zero => exact tracks_fuel
  | succ n ih => exact tracks_bind tracks_peek fun _ => tracks_ite (tracks_bind tracks_readC fun _ => tracks_bind tracks_cache fun _ => ih) tracks_pure

theorem tracks_skipLine : Tracks skipLine := by
  intro m cs b m' cs' h
  rw [y_skipLine] at h
  rcases h with ⟨b, hb, rfl⟩ | ⟨_, rfl, rfl⟩
  · have := hb.length
    simp; omega
  · rfl

theorem tracks_skipComment {n : Nat} : Tracks (skipComment n) := tracks_bind tracks_peek fun _ => tracks_ite tracks_skipWhile tracks_pure

theorem tracks_finishLine {f : Nat} {ctx : String} {start : Mark} : Tracks (finishLine f ctx start) := by
  unfold finishLine
  exact tracks_bind tracks_cache fun _ => tracks_bind tracks_skipWhile fun _ => tracks_bind tracks_skipComment fun _ => tracks_bind tracks_peek fun _ =>
    tracks_ite (tracks_ite (tracks_bind tracks_cache fun _ => tracks_skipLine) tracks_pure) tracks_err

theorem tracks_increment {start : Mark} : Tracks (scanIncrement start) := by
  unfold scanIncrement
  exact tracks_bind tracks_peek fun _ => tracks_ite (tracks_ite tracks_err (tracks_bind tracks_skipC fun _ => tracks_pure)) tracks_pure

theorem tracks_blockHeader {start : Mark} : Tracks (scanBlockHeader start) := by
  unfold scanBlockHeader
  refine tracks_bind tracks_cache fun _ => tracks_bind tracks_peek fun c => ?_
  split
  · exact tracks_bind tracks_skipC fun _ => tracks_bind tracks_cache fun _ => tracks_bind tracks_increment fun _ => tracks_pure
  · refine tracks_bind tracks_increment fun _ => tracks_ite tracks_pure (tracks_bind tracks_cache fun _ => tracks_bind tracks_peek fun d => ?_)
    split
    · exact tracks_bind tracks_skipC fun _ => tracks_pure
    · exact tracks_pure

/-! ### Directives -/

theorem tracks_directiveName {f : Nat} {start : Mark} : Tracks (scanDirectiveName f start) := by
  unfold scanDirectiveName
  exact tracks_bind tracks_cache fun _ => tracks_bind tracks_readWhile fun _ => tracks_ite tracks_err (tracks_bind tracks_peek fun _ => tracks_ite tracks_pure tracks_err)

theorem tracks_versionNumber {start : Mark} {n v l : Nat} : Tracks (scanVersionNumber start n v l) := by
  induction n generalizing v l with
  | zero => exact tracks_fuel
  | succ n ih =>
    exact tracks_bind tracks_peek fun _ => tracks_ite (tracks_ite tracks_err (tracks_bind tracks_skipC fun _ => tracks_bind tracks_cache fun _ => ih))
      (tracks_ite tracks_err tracks_pure)

theorem tracks_versionValue {f : Nat} {start : Mark} : Tracks (scanVersionValue f start) := by
  unfold scanVersionValue
  exact tracks_bind tracks_cache fun _ => tracks_bind tracks_skipWhile fun _ => tracks_bind tracks_cache fun _ => tracks_bind tracks_versionNumber fun _ =>
    tracks_bind tracks_peek fun _ => tracks_ite (tracks_bind tracks_skipC fun _ => tracks_bind tracks_cache fun _ => tracks_bind tracks_versionNumber fun _ => tracks_pure)
      tracks_err

theorem tracks_tagHandle {f : Nat} {d : Bool} {start : Mark} : Tracks (scanTagHandle f d start) := by
  unfold scanTagHandle
  exact tracks_bind tracks_cache fun _ => tracks_bind tracks_peek fun _ => tracks_ite (tracks_bind tracks_readC fun _ => tracks_bind tracks_cache fun _ =>
    tracks_bind tracks_readWhile fun _ => tracks_bind tracks_peek fun _ => tracks_ite tracks_readC (tracks_ite tracks_err tracks_pure)) tracks_err

theorem tracks_octet {d : Bool} {start : Mark} : Tracks (scanOctet d start) := by
  unfold scanOctet
  exact tracks_bind tracks_cache fun _ => tracks_bind tracks_peek fun _ => tracks_ite (tracks_bind tracks_peek fun _ => tracks_ite (tracks_bind tracks_peek fun _ =>
    tracks_ite tracks_pure tracks_err) tracks_err) tracks_err

theorem tracks_skip3 {p : Lex α} (h : Tracks p) : Tracks (do skipC; skipC; skipC; p) :=
  tracks_bind tracks_skipC fun _ => tracks_bind tracks_skipC fun _ => tracks_bind tracks_skipC fun _ => h

theorem tracks_trailing {d : Bool} {start : Mark} {w : Nat} {os : List Nat} : Tracks (scanTrailing d start w os) := by
  induction w generalizing os with
  | zero => exact tracks_pure
  | succ w ih => exact tracks_bind tracks_octet fun _ => tracks_ite (tracks_skip3 ih) tracks_err

theorem tracks_uriEscapes {d : Bool} {start : Mark} : Tracks (scanUriEscapes d start) := by
  unfold scanUriEscapes
  exact tracks_bind tracks_octet fun _ => tracks_ite tracks_err (tracks_skip3 (tracks_bind tracks_trailing fun _ => tracks_pure))

theorem tracks_uriLoop {u d : Bool} {start : Mark} {n : Nat} {s : Text} : Tracks (scanUriLoop u d start n s) := by
  induction n generalizing s with
  | zero => exact tracks_fuel
  | succ n ih =>
    exact tracks_bind tracks_peek fun _ => tracks_ite (tracks_ite (tracks_bind tracks_uriEscapes fun _ => tracks_bind tracks_cache fun _ => ih)
      (tracks_bind tracks_readC fun _ => tracks_bind tracks_cache fun _ => ih)) tracks_pure

theorem tracks_tagUri {f : Nat} {u d : Bool} {head : Text} {start : Mark} : Tracks (scanTagUri f u d head start) := by
  unfold scanTagUri
  exact tracks_bind tracks_cache fun _ => tracks_bind tracks_uriLoop fun _ => tracks_ite tracks_err tracks_pure

theorem tracks_tagDirValue {f : Nat} {start : Mark} : Tracks (scanTagDirValue f start) := by
  unfold scanTagDirValue
  exact tracks_bind tracks_cache fun _ => tracks_bind tracks_skipWhile fun _ => tracks_bind tracks_tagHandle fun _ => tracks_bind tracks_cache fun _ =>
    tracks_bind tracks_peek fun _ => tracks_ite (tracks_bind tracks_skipWhile fun _ => tracks_bind tracks_tagUri fun _ => tracks_bind tracks_cache fun _ =>
      tracks_bind tracks_peek fun _ => tracks_ite tracks_pure tracks_err) tracks_err

end LibYaml
