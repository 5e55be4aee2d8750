import Verif.Proofs.ScannerHeapScalars
import Verif.Props.EventApi

/-!
# C71: the memory of the functions that scan one token

Heaps, allocation outcomes, positions, states of the reader and read handlers are arbitrary. The functions on the heap (`Model/ScannerHeap.lean`) are
compared with those on values (`Model/Lexer.lean`), of which C18 to C24 speak.
-/

namespace LibYaml

open Spec

/-- The strings that a function holds in its local variables. -/
def NoStrings (s : LX) : Prop := ∀ r, s.regs r = {}

/-- `m` on the heap does what `x` does on values. It ends without undefined behaviour wherever `x` does. If it succeeds so does `x`, with the same token,
position and state of the reader, and the new blocks are those of the token. If it fails the heap is as before, and `x` failed with the same error or
some allocation failed. -/
def Scans {α β : Type} (o : Oracle) (m : HL β) (x : Lex α) (same : β → α → Blocks → Prop) : Prop :=
  ∀ (mark : Mark) (inp : RS) (h : Heap), h.Fresh → (x mark).runR o inp ≠ .error .ub → (x mark).runR o inp ≠ .error .fuel →
    ∃ r s h', m { mark, inp } h = .ok ((r, s), h') ∧ h'.Fresh ∧ NoStrings s ∧
      match r with
      | .ok v => ∃ a b, (x mark).runR o inp = .ok ((a, s.mark), s.inp) ∧ same v a b ∧ Adds h b h'
      | .error e => h'.mem = h.mem ∧
          ((∃ f, (x mark).runR o inp = .error f ∧ e = some f) ∨ ((e = none ∨ e = some .memory) ∧ ¬ ∀ k, h.ok k = true))

theorem nostrings {V : RV} {s : LX} {b : Blocks} (h : RAt V s.regs b) (hn : ∀ r, V.get r = .null) : NoStrings s ∧ b = [] := by
  obtain ⟨b1, b2, b3, b4, k1, k2, k3, k4, rfl⟩ := h
  rw [show V.str = .null from hn .str] at k1
  rw [show V.lead = .null from hn .lead] at k2
  rw [show V.trail = .null from hn .trail] at k3
  rw [show V.white = .null from hn .white] at k4
  obtain ⟨k1, rfl⟩ := k1
  obtain ⟨k2, rfl⟩ := k2
  obtain ⟨k3, rfl⟩ := k3
  obtain ⟨k4, rfl⟩ := k4
  exact ⟨fun r => by cases r <;> assumption, rfl⟩

theorem scans_of {α β : Type} {o : Oracle} {m : HL β} {x : Lex α} {same : β → α → Blocks → Prop}
    (hm : ∀ A base, LRel o A base [] nullV [] [] m x (fun v a W d => W = nullV ∧ ∃ b, same v a b ∧ d.Perm (b ++ []))) : Scans o m x same := by
  intro mark inp h hf h1 h2
  have e := Ext.start hf (fun (y : ∀ k, h.ok k = true) => y)
  have sane : Sane ((x mark).runR o inp) := fun er he => ⟨fun h' => h1 (by rw [he, h']), fun h' => h2 (by rw [he, h'])⟩
  have hr : LRep [] nullV { mark, inp } mark inp [] := ⟨rfl, rfl, ⟨[], [], [], [], ⟨rfl, rfl⟩, ⟨rfl, rfl⟩, ⟨rfl, rfl⟩, ⟨rfl, rfl⟩, rfl⟩, fun r _ => nullV_get r⟩
  obtain ⟨⟨r, s⟩, h', hrun, post⟩ := hw_out (hm _ _ { mark, inp } mark inp [] h hr e sane)
  refine ⟨r, s, h', hrun, ?_⟩
  rcases r with er | v
  · obtain ⟨⟨j, t, inp', b, hj, e'⟩, hk⟩ := post
    obtain ⟨hn, rfl⟩ := nostrings hj.2.2.1 (fun r => hj.2.2.2 r (by simp))
    exact ⟨e'.fresh, hn, e'.done, hk.imp id fun ⟨k1, k2⟩ => ⟨k1, fun ha => (k2 ha).elim⟩⟩
  · obtain ⟨a, t, inp', j, c, b, k1, hj, e', rfl, b', k2, k3⟩ := post
    obtain ⟨hn, rfl⟩ := nostrings hj.2.2.1 (fun r => hj.2.2.2 r (by simp))
    obtain ⟨j1, j2, _⟩ := hj
    have e2 : Ext (∀ k, h.ok k = true) h.mem b' h' := e'.perm (by simpa using k3)
    refine ⟨e'.fresh, hn, a, b', ?_, k2, ⟨e2.cells, e2.keys, e2.sep⟩⟩
    rw [k1, j1, j2]

theorem scans_token {o : Oracle} {m : HL HToken} {x : Lex Token} (hm : ∀ A base, LRel o A base [] nullV [] [] m x (QT [])) : Scans o m x SameToken :=
  scans_of fun A base => xr_post (hm A base) fun _ _ _ _ ⟨h1, b, h2, h3, h4, h5⟩ => ⟨h1, b, ⟨h2, h3, h4⟩, h5⟩

/-- Directives (`yaml_parser_scan_directive`). -/
theorem C71_directive (o : Oracle) (f : Nat) : Scans o (hDirective o f) (scanDirective f) SameToken := scans_token fun _ _ => lr_directive

/-- Anchors and aliases (`yaml_parser_scan_anchor`). -/
theorem C71_anchor (o : Oracle) (f : Nat) (anchor : Bool) : Scans o (hAnchorToken o f anchor) (scanAnchor f anchor) SameToken :=
  scans_token fun _ _ => lr_anchor

/-- Tags (`yaml_parser_scan_tag`). -/
theorem C71_tag (o : Oracle) (f : Nat) (flow : Bool) : Scans o (hTagToken o f flow) (scanTag f flow) SameToken := scans_token fun _ _ => lr_tag

/-- Literal and folded scalars (`yaml_parser_scan_block_scalar`). -/
theorem C71_block_scalar (o : Oracle) (f : Nat) (indent : Int) (literal : Bool) :
    Scans o (hBlockToken o f indent literal) (scanBlockScalar f indent literal) SameToken := scans_token fun _ _ => lr_block

/-- Quoted scalars (`yaml_parser_scan_flow_scalar`). -/
theorem C71_flow_scalar (o : Oracle) (f : Nat) (single : Bool) : Scans o (hFlowToken o f single) (scanFlowScalar f single) SameToken :=
  scans_token fun _ _ => lr_flow

/-- Plain scalars (`yaml_parser_scan_plain_scalar`); the second component tells whether a simple key is allowed behind the scalar. -/
theorem C71_plain_scalar (o : Oracle) (f : Nat) (indent : Int) (flow : Bool) :
    Scans o (hPlainToken o f indent flow) (scanPlainScalar f indent flow) (fun v a b => SameToken v.1 a.1 b ∧ v.2 = a.2) :=
  scans_of fun _ _ => xr_post lr_plain fun _ _ _ _ ⟨⟨h1, b, h2, h3, h4, h5⟩, h6⟩ => ⟨h1, b, ⟨⟨h2, h3, h4⟩, h6⟩, h5⟩

/-- The state of the reader when a token is scanned: one character is in the buffer. -/
def oneRead (bytes : List UInt8) : RS :=
  match cacheR (fun _ => some 4) (RS.init bytes none) 1 with
  | .ok s => s
  | .error _ => RS.init bytes none

def tokenOf {α : Type} (r : Except Fail ((Except (Option Fail) α × LX) × Heap)) : Option α :=
  match r with
  | .ok ((.ok t, _), _) => some t
  | _ => none

/-- How a call failed: undefined behaviour is `none`. -/
def failOf {α : Type} (r : Except Fail ((Except (Option Fail) α × LX) × Heap)) : Option (Option Fail) :=
  match r with
  | .ok ((.error e, _), _) => some e
  | _ => none

example : tokenOf (hTagToken (fun _ => some 4) 9 false { mark := {}, inp := oneRead [33, 97, 32, 98] } (demoHeap 9)) =
    some { data := .tag (some 3) (some 2), start := {}, stop := { index := 2, line := 0, column := 2 } } := by decide +kernel

example : tokenOf (hFlowToken (fun _ => some 4) 40 false
      { mark := {}, inp := oneRead [34, 97, 97, 97, 97, 97, 97, 97, 97, 97, 97, 97, 97, 97, 97, 92, 110, 97, 32, 32, 97, 34] } (demoHeap 9)) =
    some { data := .scalar (some 5) 19 .double, start := {}, stop := { index := 22, line := 0, column := 22 } } := by decide +kernel

/-- The two small allocations of `yaml_parser_scan_tag`: if they fail, the function fails and sets no error. -/
theorem C71_no_error_set : ∃ (inp : RS) (h : Heap), h.Fresh ∧
    failOf (hTagToken (fun _ => some 4) 9 false { mark := {}, inp } h) = some none :=
  ⟨oneRead [33, 97, 32, 98], demoHeap 2, demoHeap_fresh 2, by decide +kernel⟩

example : failOf (hTagToken (fun _ => some 4) 9 false { mark := {}, inp := oneRead [33, 60, 97, 62, 32] } (demoHeap 0)) = some none := by decide +kernel
example : failOf (hTagToken (fun _ => some 4) 9 false { mark := {}, inp := oneRead [33, 97, 32, 98] } (demoHeap 0)) = some (some .memory) := by decide +kernel

end LibYaml
