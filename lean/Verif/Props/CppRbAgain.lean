import Verif.Props.RbAgain
import Verif.Props.CppRb

/-!
# C113, exactly: which insertions into the C++ red-black tree keep the colouring
-/
namespace Props
open Py Model Model.Cpp Spec
set_option linter.unusedSectionVars false
variable {κ δ : Type} [DecidableEq κ]

/-- The tree a history of insertions leaves, with C++. -/
def CLeft (lt : κ → κ → Bool) (os : Bool) (ops : List (κ × Option δ)) (c : CTree κ δ) : Prop :=
  EndsWith (fun n => cRbBuild (ofLt lt) n os ops) (.ok c)

/-- The C++ `search(k)` finds a black node that is not the root. -/
def CBlackInside (lt : κ → κ → Bool) (c : CTree κ δ) (k : κ) : Prop :=
  ∃ i n, EndsWith (fun fuel => cSearch (ofLt lt) fuel c.t k) (.ok (some i)) ∧ c.t.at i = some n ∧ n.color = some 0 ∧ i ≠ c.t.rootIdx

theorem endsWith_unique {β : Type} {f : Nat → β} {x y : β} (h : EndsWith f x) (h' : EndsWith f y) : x = y := by
  obtain ⟨n1, h1⟩ := h
  obtain ⟨n2, h2⟩ := h'
  rw [← h1 (n1 + n2) (by omega), h2 (n1 + n2) (by omega)]

theorem cLeft_iff {lt : κ → κ → Bool} (ht : StrictTotal (ltRel lt)) {os : Bool} {ops : List (κ × Option δ)} {P : BTree κ δ → Prop} :
    (∃ c, CLeft lt os ops c ∧ P c.t) ↔ ∃ t, Left lt os ops t ∧ P t := by
  obtain ⟨t, _, hr⟩ := rb_history ht os ops
  have hc := cRbBuild_run ht os ops hr
  constructor
  · rintro ⟨c, hL, hp⟩
    have e := endsWith_unique hL hc
    cases e
    exact ⟨t, hr, hp⟩
  · rintro ⟨t', hL, hp⟩
    have e := Left.unique hL hr
    subst e
    exact ⟨onC t', hc, hp⟩

theorem cBlackInside_iff {lt : κ → κ → Bool} (ht : StrictTotal (ltRel lt)) {os : Bool} {H : Prop} {t : BTree κ δ} {m : κ → Option (Option δ)}
    (h : RbState lt os H t m) (k : κ) : CBlackInside lt (onC t) k ↔ BlackInside lt t k := by
  have : ∃ r, EndsWith (fun fuel => bstSearch lt fuel t k) (.ok r) := by
    cases h with
    | empty h _ => subst h; exact ⟨none, 0, fun n _ => by cases n <;> rfl⟩
    | tree T ok car _ _ _ =>
      obtain ⟨r, e, _⟩ := search_map ht ok.tree ok.srt car k
      exact ⟨r, e⟩
  obtain ⟨r, hr⟩ := this
  have hc : EndsWith (fun fuel => cSearch (ofLt lt) fuel (onC t).t k) (.ok r) := Le.endsWith (fun n => le_search lt n t k) hr
  constructor
  · rintro ⟨i, n, hs, h1⟩
    cases endsWith_unique hs hc
    exact ⟨i, n, hr, h1⟩
  · rintro ⟨i, n, hs, h1⟩
    cases endsWith_unique hs hr
    exact ⟨i, n, hc, h1⟩

/-- **C113** for key objects no two of which have the same value: the tree is a red-black tree after every call of a history if and only if no call
inserts a key whose node is at that time black and not the root. -/
theorem C113_exact {lt : κ → κ → Bool} (ht : StrictTotal (ltRel lt)) (os : Bool) (ops : List (κ × Option δ)) :
    (∀ p, p <+: ops → p ≠ [] → ∃ c, CLeft lt os p c ∧ Coloured c.t) ↔
      ∀ p k d, p ++ [(k, d)] <+: ops → ∃ c, CLeft lt os p c ∧ ¬ CBlackInside lt c k := by
  have h1 : ∀ p : List (κ × Option δ), (∃ c : CTree κ δ, CLeft lt os p c ∧ Coloured c.t) ↔ ∃ t : BTree κ δ, Left lt os p t ∧ Coloured t := fun p => cLeft_iff ht
  have h2 : ∀ (p : List (κ × Option δ)) k, (∃ c : CTree κ δ, CLeft lt os p c ∧ ¬ CBlackInside lt c k) ↔ ∃ t : BTree κ δ, Left lt os p t ∧ ¬ BlackInside lt t k := by
    intro p k
    obtain ⟨t, hs, hr⟩ := rb_history ht os p
    have hc := cRbBuild_run ht os p hr
    constructor
    · rintro ⟨c, hL, hn⟩
      have e := endsWith_unique hL hc
      cases e
      exact ⟨t, hr, fun hb => hn ((cBlackInside_iff ht hs k).mpr hb)⟩
    · rintro ⟨t', hL, hn⟩
      have e := Left.unique hL hr
      subst e
      exact ⟨onC t', hc, fun hb => hn ((cBlackInside_iff ht hs k).mp hb)⟩
  simp only [h1, h2]
  exact C78_exact ht os ops

/-- 1, 2, 3, 4: inserting 1 again is not allowed. -/
example : ∃ c : CTree Nat Char, CLeft (fun a b => decide (a < b)) false [(1, none), (2, none), (3, none), (4, none)] c ∧ CBlackInside (fun a b => decide (a < b)) c 1 := by
  refine ⟨⟨⟨[some { key := some 1, data := none, parent := some 1, color := some 0 },
    some { key := some 2, data := none, left := some 0, right := some 2, color := some 0, isRoot := true },
    some { key := some 3, data := none, right := some 3, parent := some 1, color := some 0 },
    some { key := some 4, data := none, parent := some 2, color := some 1 }, none, none, none], 4, 4, 1, 4, false⟩, 7⟩, ⟨30, fun n hn => ?_⟩, ?_⟩
  · obtain ⟨m, rfl⟩ : ∃ m, n = m + 30 := ⟨n - 30, by omega⟩
    rfl
  · exact ⟨0, _, ⟨9, fun n hn => (by obtain ⟨m, rfl⟩ : ∃ m, n = m + 9 := ⟨n - 9, by omega⟩; rfl)⟩, rfl, rfl, by decide⟩
end Props
