import Verif.Props.CppBst
import Verif.Props.LcaExact
import Verif.Props.Backends

/-! # C108: algorithm 2 of the C++ tree for every pair of keys; C125: both back ends agree on it -/
namespace Props
open Py Model Model.Cpp Spec
variable {κ δ : Type} [DecidableEq κ]

theorem node_undefined {t : BTree κ δ} {i : Nat} {e : PyErr} (h : getNode t i = .error e) : cNode t i = .error .undefined := by
  cases hc : cNode t i with
  | error e' =>
    unfold cNode at hc
    split at hc
    · cases hc
    · exact hc.symm
  | ok n =>
    unfold cNode at hc
    split at hc
    · rename_i n' hn
      simp [getNode, rd, hn, cell] at h
    · cases hc

theorem cmp_undefined {lt : κ → κ → Bool} {a b : Option κ} {e : PyErr} (h : cmpKey lt a b = .error e) : cCmp (ofLt lt) a b = .error .undefined := by
  cases a with
  | none => rfl
  | some a => cases b with
    | none => rfl
    | some b => cases h

/-- Where the Python program answers, the C++ program answers the same (up to the representation `F`); where it raises, the behaviour of the C++ program is undefined. -/
def Mirrors {α β : Type _} (F : α → β) (p : PyM α) (q : PyM β) : Prop :=
  (∀ a, p = .ok a → q = .ok (F a)) ∧ ∀ e, p = .error e → e ≠ .outOfFuel → q = .error .undefined

theorem Mirrors.bind {α β γ γ' : Type _} {h : α → β} {F : γ → γ'} {p : PyM α} {q : PyM β} {k : α → PyM γ} {k' : β → PyM γ'} (h1 : Mirrors h p q)
    (h2 : ∀ a, p = .ok a → Mirrors F (k a) (k' (h a))) : Mirrors F (p >>= k) (q >>= k') := by
  cases hp : p with
  | error e =>
    refine ⟨fun a hs => by simp at hs, fun e' he hne => ?_⟩
    simp only [error_bind] at he
    cases he
    rw [h1.2 e hp hne]; rfl
  | ok a => rw [h1.1 a hp]; simp only [ok_bind]; exact h2 a hp

theorem Mirrors.while_ {σ τ : Type _} {c : σ → PyM Bool} {b : σ → PyM σ} {c' : τ → PyM Bool} {b' : τ → PyM τ} (f : σ → τ)
    (hc : ∀ s, c s = c' (f s)) (hb : ∀ s, Mirrors f (b s) (b' (f s))) (hce : ∀ s e, c s ≠ .error e) :
    ∀ (n : Nat) (s : σ), Mirrors f (whileLoop n c b s) (whileLoop n c' b' (f s)) := by
  intro n
  induction n with
  | zero => intro s; exact ⟨fun a h => (nomatch h), fun e h hne => absurd (Except.error.inj h).symm hne⟩
  | succ n ih =>
    intro s
    rw [whileLoop, whileLoop, ← hc s]
    cases hs : c s with
    | error e => exact absurd hs (hce s e)
    | ok x =>
      simp only [ok_bind]
      cases x with
      | false => exact ⟨fun a h => by cases h; rfl, fun e h => (nomatch h)⟩
      | true =>
        simp only [if_true]
        exact (hb s).bind fun a _ => ih a

theorem mirrors_node (t : BTree κ δ) (i : Nat) : Mirrors id (getNode t i) (cNode t i) := ⟨fun a h => le_node t i a h, fun _ h _ => node_undefined h⟩

omit [DecidableEq κ] in
theorem mirrors_idx (o : Option Nat) : Mirrors id (asIdx o) (cIdx o) := by
  cases o with
  | none => exact ⟨fun a h => (nomatch h), fun e _ _ => rfl⟩
  | some i => exact ⟨fun a h => h, fun e h => (nomatch h)⟩

theorem mirrors_cmp (lt : κ → κ → Bool) (a b : Option κ) : Mirrors (fun x : Bool => if x then (1 : Int) else 0) (cmpKey lt a b) (cCmp (ofLt lt) a b) :=
  ⟨fun _ h => cmp_inv h, fun _ h _ => cmp_undefined h⟩

theorem Mirrors.ok {α β : Type _} {F : α → β} {a : α} {b : β} (h : F a = b) : Mirrors F (.ok a : PyM α) (.ok b) :=
  ⟨fun _ e => by cases e; rw [h], fun _ e => (nomatch e)⟩

/-- The state of the C++ loop for a state of the Python loop. -/
def cLca2Of (s : Lca2St κ) : CLca2St κ := ⟨s.curr, if s.uLeft then 1 else 0, if s.vLeft then 1 else 0, s.out⟩

theorem mirrors_lca2Body (lt : κ → κ → Bool) (t : BTree κ δ) (u v : Nat) (s : Lca2St κ) :
    Mirrors cLca2Of (lca2Body lt t u v s) (cLca2Body (ofLt lt) t u v (cLca2Of s)) := by
  unfold lca2Body cLca2Body getNode?
  simp only [bind_assoc]
  refine (mirrors_idx _).bind fun i _ => (mirrors_node t _).bind fun c _ => ?_
  have hnext : (if (cLca2Of s).uLeft ≠ 0 ∧ (cLca2Of s).vLeft ≠ 0 then (id c).left else (id c).right) =
      if (s.uLeft && s.vLeft) = true then c.left else c.right := by
    unfold cLca2Of
    cases s.uLeft <;> cases s.vLeft <;> rfl
  rw [hnext]
  generalize (if (s.uLeft && s.vLeft) = true then c.left else c.right) = next
  split
  · exact (mirrors_idx _).bind fun i _ => (mirrors_node t _).bind fun n _ => .ok rfl
  · exact (mirrors_node t _).bind fun nu _ => (mirrors_idx _).bind fun i _ => (mirrors_node t _).bind fun n _ => (mirrors_cmp lt _ _).bind fun a _ =>
      (mirrors_node t _).bind fun nv _ => (mirrors_cmp lt _ _).bind fun b _ => .ok rfl

/-- The part of algorithm 2 after both keys were found. -/
theorem mirrors_lca2 {lt : κ → κ → Bool} {fuel : Nat} {t : BTree κ δ} {j k : κ} {u v : Nat} (hu : bstSearch lt fuel t j = .ok (some u))
    (hv : bstSearch lt fuel t k = .ok (some v)) : Mirrors id (lca2 lt fuel t j k) (cLca2 (ofLt lt) fuel t j k) := by
  unfold lca2 cLca2
  rw [hu, hv, le_search _ _ _ _ _ hu, le_search _ _ _ _ _ hv]
  simp only [ok_bind]
  refine (mirrors_node t _).bind fun nu _ => (mirrors_node t _).bind fun r _ => (mirrors_cmp lt _ _).bind fun a _ => (mirrors_node t _).bind fun nv _ =>
    (mirrors_cmp lt _ _).bind fun b _ => (Mirrors.while_ cLca2Of ?_ (mirrors_lca2Body lt t u v) ?_ fuel ⟨some t.rootIdx, a, b, none⟩).bind fun s _ => ?_
  · intro s
    unfold lca2Cond cLca2Cond cLca2Of
    cases s.uLeft <;> cases s.vLeft <;> rfl
  · intro s e h; cases h
  · have : (cLca2Of s).out = s.out := rfl
    rw [this]
    cases s.out with
    | some o => exact .ok rfl
    | none =>
      simp only [getNode?, bind_assoc]
      exact (mirrors_idx _).bind fun i _ => (mirrors_node t _).bind fun n _ => .ok rfl

/-- **C108**, algorithm 2 for every pair of keys, as `C76_lca2_exact` says of the Python tree: an absent key raises `ValueError`; asking for the root's key twice is undefined
behaviour (`PyLong_AsLong(None)` as a position); if one key is the root's and the other greater, the answer is that for the next key instead of the root's; otherwise it is the
lowest common ancestor. -/
theorem C108_lca2_exact {lt : κ → κ → Bool} (ht : StrictTotal (ltRel lt)) (os : Bool) (ops : List (κ × Option δ)) (hne : ops ≠ []) :
    ∃ c T a0, EndsWith (fun n => cBuild (ofLt lt) n os ops) (.ok c) ∧ HoldsTree c.t c.t.rootIdx T ∧ KeyAt c.t c.t.rootIdx a0 ∧ ∀ j k,
      (j ∉ ops.map (·.1) ∨ k ∉ ops.map (·.1) → EndsWith (fun n => cLca2 (ofLt lt) n c.t j k) (.error .valueError)) ∧
      (j = a0 → k = a0 → EndsWith (fun n => cLca2 (ofLt lt) n c.t j k) (.error .undefined)) ∧
      (j ∈ ops.map (·.1) → k ∈ ops.map (·.1) → ¬ (j = a0 ∧ k = a0) → ∃ j' k' u v w a, Stands lt (ops.map (·.1)) a0 j k j' k' ∧
        KeyAt c.t u j' ∧ KeyAt c.t v k' ∧ IsLca T u v w ∧ KeyAt c.t w a ∧ EndsWith (fun n => cLca2 (ofLt lt) n c.t j k) (.ok (some a))) := by
  obtain ⟨t, T, a0, hrun, hT, h0, hall⟩ := C76_lca2_exact ht os ops hne
  obtain ⟨t', ⟨n1, h1⟩, hs⟩ := C72_search ht os ops
  obtain ⟨c', ⟨n2, h2⟩, habs⟩ := C108_lca2_absent (δ := δ) ht os ops
  have hc := cBuild_run ht os ops hrun
  obtain ⟨n3, h3⟩ := hc
  obtain ⟨n0, hr0⟩ := hrun
  have et : t' = t := Except.ok.inj ((h1 (max n1 n0) (by omega)).symm.trans (hr0 (max n1 n0) (by omega)))
  have ec : c' = onC t := Except.ok.inj ((h2 (max n2 n3) (by omega)).symm.trans (h3 (max n2 n3) (by omega)))
  subst et ec
  refine ⟨onC t', T, a0, ⟨n3, h3⟩, hT, h0, fun j k => ⟨habs j k, ?_, ?_⟩⟩
  · rintro rfl rfl
    obtain ⟨n5, h5⟩ := (hall k k).2.1 rfl rfl
    obtain ⟨r, ⟨n4, h4⟩, ha⟩ := hs k
    cases r with
    | none =>
      exfalso
      have e := h5 (max n5 n4) (by omega)
      have e4 := h4 (max n5 n4) (by omega)
      dsimp only at e e4
      simp only [lca2, e4, ok_bind] at e
      cases e
    | some u =>
      refine ⟨max n5 n4, fun n hn => ?_⟩
      have e4 := h4 n (by omega)
      exact (mirrors_lca2 e4 e4).2 .typeError (h5 n (by omega)) (by decide)
  · intro hj hk hn
    obtain ⟨j', k', u, v, w, a, b1, b2, b3, b4, b5, b6⟩ := (hall j k).2.2 hj hk hn
    exact ⟨j', k', u, v, w, a, b1, b2, b3, b4, b5, Le.endsWith (fun n => le_lca2 lt n t' j k) b6⟩

/-- The lowest common ancestor by algorithm 2: after any insertions the back ends give the same answer for every pair of keys, the same `ValueError` for an absent key, and the only
difference is the root's key asked for twice: Python raises `TypeError`, C++ takes `None` for a position. Missing: `C125_full_false`. -/
theorem C125_lca2_partial {lt : κ → κ → Bool} (ht : StrictTotal (ltRel lt)) (os : Bool) (ops : List (κ × Option δ)) (hne : ops ≠ []) :
    ∃ t c a0, EndsWith (fun n => bstInserts lt n (btEmpty os) ops) (.ok t) ∧ EndsWith (fun n => cBuild (ofLt lt) n os ops) (.ok c) ∧ KeyAt t t.rootIdx a0 ∧ ∀ j k,
      (¬ (j = a0 ∧ k = a0) → ∃ r, r ≠ .error .outOfFuel ∧ EndsWith (fun n => lca2 lt n t j k) r ∧ EndsWith (fun n => cLca2 (ofLt lt) n c.t j k) r) ∧
      (j = a0 ∧ k = a0 → EndsWith (fun n => lca2 lt n t j k) (.error .typeError) ∧ EndsWith (fun n => cLca2 (ofLt lt) n c.t j k) (.error .undefined)) := by
  obtain ⟨t, T, a0, hrun, hT, h0, hall⟩ := C76_lca2_exact ht os ops hne
  obtain ⟨c, T', a0', ⟨n2, h2⟩, -, h0', hallc⟩ := C108_lca2_exact (δ := δ) ht os ops hne
  obtain ⟨n3, h3⟩ := cBuild_run ht os ops hrun
  have ec : c = onC t := Except.ok.inj ((h2 (max n2 n3) (by omega)).symm.trans (h3 (max n2 n3) (by omega)))
  subst ec
  have ea : a0' = a0 := by
    obtain ⟨n, e, h⟩ := h0
    obtain ⟨n', e', h'⟩ := h0'
    have := e.symm.trans e'
    simp only [Option.some.injEq] at this
    subst this
    exact Option.some.inj (h'.symm.trans h)
  subst ea
  refine ⟨t, onC t, a0', hrun, ⟨n2, h2⟩, h0, fun j k => ⟨fun hn => ?_, fun ⟨h, h'⟩ => ⟨(hall j k).2.1 h h', (hallc j k).2.1 h h'⟩⟩⟩
  by_cases hjk : j ∉ ops.map (·.1) ∨ k ∉ ops.map (·.1)
  · exact ⟨.error .valueError, (fun h => nomatch h), (hall j k).1 hjk, (hallc j k).1 hjk⟩
  · have hj : j ∈ ops.map (·.1) := Classical.byContradiction fun h => hjk (.inl h)
    have hk : k ∈ ops.map (·.1) := Classical.byContradiction fun h => hjk (.inr h)
    obtain ⟨j', k', u, v, w, a, -, -, -, -, -, b⟩ := (hall j k).2.2 hj hk hn
    exact ⟨.ok (some a), (fun h => nomatch h), b, Le.endsWith (fun n => le_lca2 lt n t j k) b⟩

/-- Three keys, the root's among them. -/
example := C125_lca2_partial (δ := Nat) nat_strict false [(4, none), (2, none), (7, none)] (by simp)

end Props
