import Verif.Model.CppTraversal
import Verif.Lemmas.BstDelete
import Verif.Props.Lca
import Verif.Lemmas.Bind

/-!
# What the Python tree answers, the C++ tree answers too
-/
namespace Props
open Py Model Model.Cpp Spec
set_option linter.unusedSectionVars false
variable {κ δ : Type} [DecidableEq κ]

/-- Whatever `p` returns, `q` returns. -/
def Le {α : Type _} (p q : PyM α) : Prop := ∀ r, p = .ok r → q = .ok r

theorem Le.refl {α : Type _} (p : PyM α) : Le p p := fun _ h => h

theorem Le.error {α : Type _} {e : PyErr} {q : PyM α} : Le (.error e) q := fun _ h => nomatch h

theorem Le.bind {α β : Type _} {p q : PyM α} {f g : α → PyM β} (h : Le p q) (hf : ∀ a, p = .ok a → Le (f a) (g a)) : Le (p >>= f) (q >>= g) := by
  intro r hr
  cases e : p with
  | error x => rw [e] at hr; simp at hr
  | ok a =>
    rw [e] at hr
    rw [h a e]
    exact hf a e r hr

theorem Le.while_ {σ : Type _} {c c' : σ → PyM Bool} {b b' : σ → PyM σ} (hc : ∀ s, Le (c s) (c' s)) (hb : ∀ s, Le (b s) (b' s)) :
    ∀ (n : Nat) (s : σ), Le (whileLoop n c b s) (whileLoop n c' b' s) := by
  intro n
  induction n with
  | zero => intro s; exact .error
  | succ n ih =>
    intro s
    rw [whileLoop, whileLoop]
    refine (hc s).bind fun x _ => ?_
    cases x with
    | false => exact .refl _
    | true => exact (hb s).bind fun s' _ => ih s'

theorem Le.endsWith {α : Type _} {f g : Nat → PyM α} {r : α} (h : ∀ n, Le (f n) (g n)) (he : EndsWith f (.ok r)) : EndsWith g (.ok r) := by
  obtain ⟨n0, hn⟩ := he
  exact ⟨n0, fun n h' => h n r (hn n h')⟩

/-- The comparator that answers `1` for `<` and `0` otherwise. -/
def ofLt (lt : κ → κ → Bool) (a b : κ) : Int := if lt a b then 1 else 0

theorem cNode_ok {t : BTree κ δ} {i : Nat} {n : BNode κ δ} (h : t.at i = some n) : cNode t i = .ok n := by
  have := at_some.mp h
  simp only [cNode, this]

theorem le_node (t : BTree κ δ) (i : Nat) : Le (getNode t i) (cNode t i) := by
  intro n h
  unfold getNode rd at h
  unfold cNode
  cases e : t.arr[i]? with
  | none => rw [e] at h; cases h
  | some o => cases o with
    | none => rw [e] at h; cases h
    | some m => rw [e] at h; exact h

theorem le_idx (o : Option Nat) : Le (asIdx o) (cIdx o) := by
  intro i h
  cases o with
  | none => cases h
  | some j => exact h

theorem le_mod (t : BTree κ δ) (i : Nat) (f : BNode κ δ → BNode κ δ) : Le (modNode t i f) (cMod t i f) :=
  (le_node t i).bind fun _ _ => .refl _

theorem le_modIf (t : BTree κ δ) (o : Option Nat) (f : BNode κ δ → BNode κ δ) : Le (modIf t o f) (cModIf t o f) := by
  cases o with
  | none => exact .refl _
  | some i => exact le_mod t i f

theorem cmp_inv {lt : κ → κ → Bool} {a b : Option κ} {x : Bool} (h : cmpKey lt a b = .ok x) :
    cCmp (ofLt lt) a b = .ok (if x then 1 else 0) := by
  cases a with
  | none => cases h
  | some a => cases b with
    | none => cases h
    | some b =>
      simp only [cmpKey, Except.ok.injEq] at h
      simp only [cCmp, ofLt, h]

theorem le_leftSize (t : BTree κ δ) (n : BNode κ δ) : Le (leftSize t n) (cLeftSize t n) := by
  unfold leftSize cLeftSize
  cases n.left with
  | none => exact .refl _
  | some i => exact (le_node t i).bind fun _ _ => .refl _

theorem le_rightSize (t : BTree κ δ) (n : BNode κ δ) : Le (rightSize t n) (cRightSize t n) := by
  unfold rightSize cRightSize
  cases n.right with
  | none => exact .refl _
  | some i => exact (le_node t i).bind fun _ _ => .refl _

theorem le_sizeBody (s : BTree κ δ × Option Nat) : Le (updateSizeBody s) (cSizeBody s) := by
  intro r hr
  unfold updateSizeBody resize at hr
  unfold cSizeBody
  obtain ⟨w, e1, hr⟩ := Py.bind_ok hr
  obtain ⟨t, e2, hr⟩ := Py.bind_ok hr
  obtain ⟨n, e3, e2⟩ := Py.bind_ok e2
  obtain ⟨a, e4, e2⟩ := Py.bind_ok e2
  obtain ⟨b, e5, e2⟩ := Py.bind_ok e2
  obtain ⟨m, e6, hr⟩ := Py.bind_ok hr
  rw [le_idx _ _ e1, ok_bind, le_node _ _ _ e3, ok_bind, le_leftSize _ _ _ e4, ok_bind, le_rightSize _ _ _ e5, ok_bind, le_mod _ _ _ _ e2, ok_bind,
    le_node _ _ _ e6, ok_bind]
  exact hr

theorem le_updateSize (fuel : Nat) (t : BTree κ δ) (o : Option Nat) : Le (updateSize fuel t o) (cUpdateSize fuel t o) := by
  unfold updateSize cUpdateSize
  split
  · exact (Le.while_ (fun _ => .refl _) le_sizeBody fuel _).bind fun _ _ => .refl _
  · exact .refl _

theorem le_searchBody (lt : κ → κ → Bool) (t : BTree κ δ) (k : κ) (s : BstSearchSt) : Le (bstSearchBody lt t k s) (cSearchBody (ofLt lt) t k s) := by
  refine (le_idx _).bind fun w _ => (le_node t w).bind fun n _ => ?_
  split
  · exact .refl _
  · intro r hr
    obtain ⟨x, e, hr⟩ := Py.bind_ok hr
    rw [cmp_inv e, ok_bind]
    cases x <;> exact hr

theorem le_searchP (lt : κ → κ → Bool) (fuel : Nat) (t : BTree κ δ) (k : κ) : Le (bstSearchP lt fuel t k) (cSearchP (ofLt lt) fuel t k) := by
  refine (le_node t _).bind fun n _ => ?_
  split
  · exact .refl _
  · exact (Le.while_ (fun _ => .refl _) (le_searchBody lt t k) fuel _).bind fun _ _ => .refl _

theorem le_search (lt : κ → κ → Bool) (fuel : Nat) (t : BTree κ δ) (k : κ) : Le (bstSearch lt fuel t k) (cSearch (ofLt lt) fuel t k) :=
  (le_searchP lt fuel t k).bind fun _ _ => .refl _

theorem le_bound (lt : κ → κ → Bool) (t : BTree κ δ) (k : κ) (up : Bool) : ∀ (fuel : Nat) (o : Option Nat),
    Le (boundHelper lt t k up fuel o) (cBound (ofLt lt) t k up fuel o) := by
  intro fuel
  induction fuel with
  | zero => intro o; exact .error
  | succ fuel ih =>
    intro o
    cases o with
    | none => exact .refl _
    | some i =>
      simp only [boundHelper, cBound]
      refine (le_node t i).bind fun n _ => ?_
      split
      · exact .refl _
      split
      · split
        · exact ih _
        · exact .refl _
      · intro r hr
        obtain ⟨x, e, hr⟩ := Py.bind_ok hr
        rw [cmp_inv e, ok_bind]
        cases x with
        | true => exact ih _ r hr
        | false => exact ((ih n.left).bind fun _ _ => .refl _) r hr

theorem le_rankCond (t : BTree κ δ) (s : Nat × Nat) : Le (rankCond t s) (cRankCond t s) :=
  (le_node t _).bind fun _ _ => (le_node t _).bind fun _ _ => .refl _

theorem le_rankBody (t : BTree κ δ) (s : Nat × Nat) : Le (rankBody t s) (cRankBody t s) := by
  refine (le_node t _).bind fun n _ => (le_idx _).bind fun p _ => (le_node t p).bind fun m _ => ?_
  split
  · exact (le_leftSize t m).bind fun _ _ => .refl _
  · exact .refl _

theorem le_rank (lt : κ → κ → Bool) (fuel : Nat) (t : BTree κ δ) (k : κ) : Le (bstRank lt fuel t k) (cRank (ofLt lt) fuel t k) := by
  refine (le_search lt fuel t k).bind fun o _ => ?_
  cases o with
  | none => exact .refl _
  | some w =>
    exact (le_node t w).bind fun n _ => (le_leftSize t n).bind fun a _ => (Le.while_ (le_rankCond t) (le_rankBody t) fuel _).bind fun _ _ => .refl _

/-! ## The array -/

/-- The C++ tree with the same cells, whose recorded size is right. -/
def onC (t : BTree κ δ) : CTree κ δ := ⟨t, t.arr.length⟩

/-- Whatever tree `p` returns, `q` returns it with the right recorded size. -/
def LeC (p : PyM (BTree κ δ)) (q : PyM (CTree κ δ)) : Prop := ∀ r, p = .ok r → q = .ok (onC r)

theorem mod_len {t r : BTree κ δ} {i : Nat} {f : BNode κ δ → BNode κ δ} (h : modNode t i f = .ok r) :
    r.arr.length = t.arr.length ∧ r.num = t.num ∧ r.top = t.top ∧ r.rootIdx = t.rootIdx ∧ r.size = t.size := by
  obtain ⟨n, _, h⟩ := Py.bind_ok h
  cases h
  simp

theorem modIf_len {t r : BTree κ δ} {o : Option Nat} {f : BNode κ δ → BNode κ δ} (h : modIf t o f = .ok r) :
    r.arr.length = t.arr.length ∧ r.num = t.num ∧ r.top = t.top ∧ r.rootIdx = t.rootIdx ∧ r.size = t.size := by
  cases o with
  | none => cases h; exact ⟨rfl, rfl, rfl, rfl, rfl⟩
  | some i => exact mod_len h

theorem sizeBody_len {s r : BTree κ δ × Option Nat} (h : updateSizeBody s = .ok r) : r.1.arr.length = s.1.arr.length ∧ r.1.num = s.1.num := by
  unfold updateSizeBody resize at h
  obtain ⟨w, e1, h⟩ := Py.bind_ok h
  obtain ⟨t, e2, h⟩ := Py.bind_ok h
  obtain ⟨n, e3, e2⟩ := Py.bind_ok e2
  obtain ⟨a, e4, e2⟩ := Py.bind_ok e2
  obtain ⟨b, e5, e2⟩ := Py.bind_ok e2
  obtain ⟨m, e6, h⟩ := Py.bind_ok h
  cases h
  have := mod_len e2
  exact ⟨this.1, this.2.1⟩

theorem while_inv {σ : Type _} {c : σ → PyM Bool} {b : σ → PyM σ} (P : σ → Prop) (hb : ∀ s s', P s → b s = .ok s' → P s') :
    ∀ (n : Nat) (s s' : σ), P s → whileLoop n c b s = .ok s' → P s' := by
  intro n
  induction n with
  | zero => intro s s' _ h; cases h
  | succ n ih =>
    intro s s' hs h
    rw [whileLoop] at h
    obtain ⟨x, _, h⟩ := Py.bind_ok h
    cases x with
    | false => cases h; exact hs
    | true =>
      obtain ⟨s1, e, h⟩ := Py.bind_ok h
      exact ih s1 s' (hb s s1 hs e) h

theorem updateSize_len {fuel : Nat} {t r : BTree κ δ} {o : Option Nat} (h : updateSize fuel t o = .ok r) : r.arr.length = t.arr.length := by
  unfold updateSize at h
  split at h
  · obtain ⟨s, e, h⟩ := Py.bind_ok h
    cases h
    refine while_inv (fun s => s.1.arr.length = t.arr.length) ?_ fuel _ _ rfl e
    intro s s' hs hb
    rw [(sizeBody_len hb).1, hs]
  · cases h; rfl

theorem onC_mod {t r : BTree κ δ} {i : Nat} {f : BNode κ δ → BNode κ δ} (h : modNode t i f = .ok r) : (⟨r, t.arr.length⟩ : CTree κ δ) = onC r := by
  rw [onC, (mod_len h).1]

theorem modify_no {t : BTree κ δ} (h : t.arr.length ≤ 4 * t.num) : atModify t = .ok (t, none) := by
  unfold atModify; rw [if_neg (by omega)]

theorem cModify_no {c : CTree κ δ} (h : c.t.arr.length ≤ 4 * c.t.num) : cModify c = .ok (c, none) := by
  unfold cModify; rw [if_neg (by omega)]

/-- Appending without a contraction. -/
theorem le_append (t : BTree κ δ) (n : BNode κ δ) (htop : t.top ≤ t.arr.length) (hg : grown t ≤ 4 * (t.num + 1)) :
    LeC (atAppend t n) (cAppend (onC t) n) ∧ ∀ r, atAppend t n = .ok r → r.top ≤ r.arr.length := by
  unfold grown at hg
  have key : ∀ r, atAppend t n = .ok r → cAppend (onC t) n = .ok (onC r) ∧ r.top ≤ r.arr.length := by
    intro r hr
    unfold atAppend at hr
    unfold cAppend
    by_cases h : t.top = t.arr.length
    · simp only [h, if_true] at hr hg
      rw [if_pos (show (onC t).t.top = (onC t).oda from h)]
      rw [modify_no (by simp only [List.length_append, List.length_cons, List.length_replicate]; omega)] at hr
      cases hr
      rw [cModify_no (by simp only [onC, List.length_append, List.length_cons, List.length_replicate]; omega), ok_bind]
      refine ⟨?_, ?_⟩
      · simp only [onC, h, Except.ok.injEq, CTree.mk.injEq, List.length_append, List.length_cons, List.length_replicate]
        exact ⟨trivial, by omega⟩
      · simp only [List.length_append, List.length_cons, List.length_replicate]; omega
    · simp only [if_neg h] at hr hg
      rw [if_neg (show ¬ (onC t).t.top = (onC t).oda from h), if_pos (show (onC t).t.top < (onC t).t.arr.length by simp only [onC]; omega)]
      rw [modify_no (by simp only [List.length_set]; omega)] at hr
      cases hr
      rw [cModify_no (by simp only [onC, List.length_set]; omega), ok_bind]
      refine ⟨?_, ?_⟩
      · simp only [onC, List.length_set]
      · simp only [List.length_set]; omega
  exact ⟨fun r hr => (key r hr).1, fun r hr => (key r hr).2⟩

/-- Deleting without a contraction. -/
theorem le_atDelete (t : BTree κ δ) (i : Nat) (hg : t.arr.length ≤ 4 * (t.num - 1)) : ∀ r, atDelete t i = .ok r →
    cDelete (onC t) i = .ok (onC r.1, r.2) ∧ r.2 = none ∧ r.1.arr.length = t.arr.length := by
  intro r hr
  unfold atDelete at hr
  unfold cDelete
  by_cases h : i < t.top ∧ (t.arr[i]?).join.isSome
  · rw [if_pos h] at hr
    rw [if_pos (show i < (onC t).t.top ∧ ((onC t).t.arr[i]?).join.isSome from h)]
    rw [modify_no (by simpa using hg)] at hr
    cases hr
    rw [cModify_no (by simpa [onC] using hg)]
    refine ⟨?_, rfl, by simp⟩
    simp only [onC, List.length_set]
    rfl
  · rw [if_neg h] at hr
    rw [if_neg (show ¬ (i < (onC t).t.top ∧ ((onC t).t.arr[i]?).join.isSome) from h)]
    cases hr
    exact ⟨rfl, rfl, rfl⟩

/-! ## insert -/

theorem le_insertHere (t : BTree κ δ) (w : Nat) (prev : Option Nat) (k : κ) (d : Option δ) (link : Nat → BNode κ δ → BNode κ δ)
    (htop : t.top ≤ t.arr.length) (hg : grown t ≤ 4 * (t.num + 1)) :
    LeC (insertHere t w prev k d link) (cInsertHere (onC t) w prev k d link) := by
  intro r hr
  unfold insertHere at hr
  unfold cInsertHere
  obtain ⟨t1, e1, hr⟩ := Py.bind_ok hr
  obtain ⟨t2, e2, hr⟩ := Py.bind_ok hr
  cases hr
  rw [(le_append t _ htop hg).1 _ e1, ok_bind]
  have := le_mod _ _ _ _ e2
  show (cMod (onC t1).t w (link (onC t1).t.size) >>= _) = _
  simp only [onC, this, ok_bind]
  simp only [(mod_len e2).1]

/-- The loop of `insert` as a C++ state. -/
def onI (s : InsertSt κ δ) : CInsertSt κ δ := ⟨onC s.t, s.walk, s.prev, s.flag⟩

theorem le_insertBody (lt : κ → κ → Bool) (k : κ) (d : Option δ) (s : InsertSt κ δ) (htop : s.t.top ≤ s.t.arr.length) (hg : grown s.t ≤ 4 * (s.t.num + 1)) :
    ∀ r, insertBody lt k d s = .ok r → cInsertBody (ofLt lt) k d (onI s) = .ok (onI r) ∧ (r.flag = true → r.t = s.t) := by
  intro r hr
  unfold insertBody at hr
  unfold cInsertBody
  obtain ⟨w, e1, hr⟩ := Py.bind_ok hr
  obtain ⟨n, e2, hr⟩ := Py.bind_ok hr
  obtain ⟨x, e3, hr⟩ := Py.bind_ok hr
  rw [show (onI s).walk = s.walk from rfl, le_idx _ _ e1, ok_bind, show (onI s).c.t = s.t from rfl, le_node _ _ _ e2, ok_bind, cmp_inv e3, ok_bind]
  cases x with
  | false =>
    simp only [Bool.not_false, if_true] at hr
    simp only [Bool.false_eq_true, if_false, if_true]
    split at hr
    · rw [if_pos ‹_›]
      obtain ⟨t1, e4, hr⟩ := Py.bind_ok hr
      obtain ⟨m, e5, hr⟩ := Py.bind_ok hr
      cases hr
      have := le_insertHere s.t w s.prev k d _ htop hg _ e4
      rw [show (onI s).c = onC s.t from rfl, show (onI s).prev = s.prev from rfl, this, ok_bind, show (onC t1).t = t1 from rfl, le_node _ _ _ e5, ok_bind]
      exact ⟨rfl, nofun⟩
    · rw [if_neg ‹_›]
      cases hr
      exact ⟨rfl, fun _ => rfl⟩
  | true =>
    simp only [Bool.not_true, Bool.false_eq_true, if_false] at hr
    simp only [if_true]
    rw [if_neg (by decide)]
    split at hr
    · rw [if_pos ‹_›]
      obtain ⟨t1, e4, hr⟩ := Py.bind_ok hr
      obtain ⟨m, e5, hr⟩ := Py.bind_ok hr
      cases hr
      have := le_insertHere s.t w s.prev k d _ htop hg _ e4
      rw [show (onI s).c = onC s.t from rfl, show (onI s).prev = s.prev from rfl, this, ok_bind, show (onC t1).t = t1 from rfl, le_node _ _ _ e5, ok_bind]
      exact ⟨rfl, nofun⟩
    · rw [if_neg ‹_›]
      cases hr
      exact ⟨rfl, fun _ => rfl⟩

theorem le_insertLoop (lt : κ → κ → Bool) (k : κ) (d : Option δ) : ∀ (fuel : Nat) (s r : InsertSt κ δ), s.t.top ≤ s.t.arr.length → grown s.t ≤ 4 * (s.t.num + 1) →
    whileLoop fuel insertCond (insertBody lt k d) s = .ok r → whileLoop fuel cInsertCond (cInsertBody (ofLt lt) k d) (onI s) = .ok (onI r) := by
  intro fuel
  induction fuel with
  | zero => intro s r _ _ h; cases h
  | succ fuel ih =>
    intro s r htop hg h
    rw [whileLoop] at h ⊢
    rw [show cInsertCond (onI s) = .ok s.flag from rfl]
    rw [show insertCond s = .ok s.flag from rfl] at h
    simp only [ok_bind] at h ⊢
    cases hf : s.flag with
    | false => rw [hf] at h; cases h; rfl
    | true =>
      rw [hf] at h
      simp only [if_true] at h ⊢
      obtain ⟨s1, e, h⟩ := Py.bind_ok h
      obtain ⟨hb, hfl⟩ := le_insertBody lt k d s htop hg s1 e
      rw [hb, ok_bind]
      cases hf1 : s1.flag with
      | true =>
        have := hfl hf1
        exact ih s1 r (by rw [this]; exact htop) (by rw [this]; exact hg) h
      | false =>
        cases fuel with
        | zero => cases h
        | succ fuel =>
          rw [whileLoop, show insertCond s1 = .ok s1.flag from rfl, hf1] at h
          rw [whileLoop, show cInsertCond (onI s1) = .ok s1.flag from rfl, hf1]
          cases h; rfl

/-- `insert` without a contraction. `new` says that the array is only used when the key is new. -/
theorem le_insert (lt : κ → κ → Bool) (fuel : Nat) (t : BTree κ δ) (k : κ) (d : Option δ)
    (hnew : t.top ≤ t.arr.length ∧ grown t ≤ 4 * (t.num + 1) ∨
      (∃ i, bstSearch lt fuel t k = .ok (some i)) ∨ ∃ n, getNode t t.rootIdx = .ok n ∧ n.key = none) :
    LeC (bstInsert lt fuel t k d) (cInsert (ofLt lt) fuel (onC t) k d) := by
  intro r hr
  unfold bstInsert at hr
  unfold cInsert
  obtain ⟨o, e1, hr⟩ := Py.bind_ok hr
  rw [show (onC t).t = t from rfl, le_search _ _ _ _ _ e1, ok_bind]
  cases o with
  | some i =>
    dsimp only at hr ⊢
    rw [le_mod _ _ _ _ hr, ok_bind]
    exact congrArg _ (onC_mod hr)
  | none =>
    dsimp only at hr ⊢
    unfold bstInsertNew at hr
    unfold cInsertNew
    obtain ⟨n, e2, hr⟩ := Py.bind_ok hr
    rw [show (onC t).t = t from rfl, le_node _ _ _ e2, ok_bind]
    split at hr
    · rw [if_pos ‹_›, le_mod _ _ _ _ hr, ok_bind]
      exact congrArg _ (onC_mod hr)
    · rename_i hk
      rw [if_neg hk]
      obtain ⟨s, e3, hr⟩ := Py.bind_ok hr
      rcases hnew with ⟨htop, hg⟩ | ⟨i, h⟩ | ⟨m, h, hm⟩
      · have := le_insertLoop lt k d fuel ⟨t, some t.rootIdx, some t.rootIdx, true⟩ s htop hg e3
        rw [show (⟨onC t, some t.rootIdx, some t.rootIdx, true⟩ : CInsertSt κ δ) = onI ⟨t, some t.rootIdx, some t.rootIdx, true⟩ from rfl, this, ok_bind,
          show (onI s).c.t = s.t from rfl, show (onI s).walk = s.walk from rfl, le_updateSize _ _ _ _ hr, ok_bind]
        show Except.ok (⟨r, s.t.arr.length⟩ : CTree κ δ) = _
        rw [onC, updateSize_len hr]
      · rw [h] at e1; cases e1
      · rw [h] at e2; cases e2; exact absurd hm hk

/-! ## delete -/

theorem le_turn (t : BTree κ δ) (p w : Nat) (x : Option Nat) : Le (relink t p w x) (cTurn t p w x) := by
  refine (le_node t p).bind fun n _ => ?_
  split <;> exact le_mod _ _ _

theorem turn_len {t r : BTree κ δ} {p w : Nat} {x : Option Nat} (h : relink t p w x = .ok r) : r.arr.length = t.arr.length ∧ r.num = t.num := by
  obtain ⟨n, _, h⟩ := Py.bind_ok h
  split at h
  · exact ⟨(mod_len h).1, (mod_len h).2.1⟩
  · exact ⟨(mod_len h).1, (mod_len h).2.1⟩

theorem le_delSlot (t : BTree κ δ) (x p : Nat) (hg : t.arr.length ≤ 4 * (t.num - 1)) : ∀ r, delSlot t x p = .ok r →
    cDelSlot (onC t) x p = .ok (onC r.1, r.2) ∧ r.1.arr.length = t.arr.length := by
  intro r hr
  unfold delSlot at hr
  unfold cDelSlot
  obtain ⟨n1, e1, hr⟩ := Py.bind_ok hr
  obtain ⟨n2, e2, hr⟩ := Py.bind_ok hr
  obtain ⟨q, e3, hr⟩ := Py.bind_ok hr
  obtain ⟨h1, h2, h3⟩ := le_atDelete t x hg q e3
  obtain ⟨q1, q2⟩ := q
  dsimp only at h1 h2 h3 hr
  subst h2
  dsimp only at hr
  cases hr
  rw [show (onC t).t = t from rfl, le_node _ _ _ e1, ok_bind, le_node _ _ _ e2, ok_bind, h1, ok_bind]
  exact ⟨rfl, h3⟩

theorem le_delLeaf (fuel : Nat) (t : BTree κ δ) (w : Nat) (p : Option Nat) (hg : p = none ∨ t.arr.length ≤ 4 * (t.num - 1)) : ∀ r,
    delLeaf fuel t w p = .ok r → cDelLeaf fuel (onC t) w p = .ok (onC r.1, r.2) := by
  intro r hr
  cases p with
  | none =>
    unfold delLeaf at hr
    unfold cDelLeaf
    obtain ⟨t1, e1, hr⟩ := Py.bind_ok hr
    obtain ⟨t2, e2, hr⟩ := Py.bind_ok hr
    cases hr
    show (cMod t t.rootIdx _ >>= _) = _
    rw [le_mod _ _ _ _ e1, ok_bind, le_updateSize _ _ _ _ e2, ok_bind]
    simp only [onC, updateSize_len e2, (mod_len e1).1]
  | some p =>
    replace hg := hg.resolve_left nofun
    unfold delLeaf at hr
    unfold cDelLeaf
    obtain ⟨t1, e1, hr⟩ := Py.bind_ok hr
    obtain ⟨q, e2, hr⟩ := Py.bind_ok hr
    obtain ⟨t2, e3, hr⟩ := Py.bind_ok hr
    cases hr
    obtain ⟨l1, l2⟩ := turn_len e1
    obtain ⟨h1, h2⟩ := le_delSlot t1 w p (by rw [l1, l2]; exact hg) q e2
    show (cTurn t p w none >>= _) = _
    rw [le_turn _ _ _ _ _ e1, ok_bind]
    rw [show ({ onC t with t := t1 } : CTree κ δ) = onC t1 by simp only [onC, l1], h1, ok_bind]
    show (cUpdateSize fuel q.1 q.2 >>= _) = _
    rw [le_updateSize _ _ _ _ e3, ok_bind]
    simp only [onC, updateSize_len e3]

theorem le_delTwo (fuel : Nat) (t : BTree κ δ) (w : Nat) (hg : t.arr.length ≤ 4 * (t.num - 1)) : ∀ r,
    delTwo fuel t w = .ok r → cDelTwo fuel (onC t) w = .ok (onC r.1, r.2) := by
  intro r hr
  unfold delTwo at hr
  unfold cDelTwo
  obtain ⟨n, e1, hr⟩ := Py.bind_ok hr
  obtain ⟨x, e2, hr⟩ := Py.bind_ok hr
  obtain ⟨s, e3, hr⟩ := Py.bind_ok hr
  obtain ⟨m, e4, hr⟩ := Py.bind_ok hr
  obtain ⟨t1, e5, hr⟩ := Py.bind_ok hr
  have e3' := Le.while_ (c := succCond t) (c' := cSuccCond t) (b := succBody t) (b' := cSuccBody t)
    (fun s => (le_node t _).bind fun _ _ => .refl _) (fun s => (le_node t _).bind fun _ _ => (le_idx _).bind fun _ _ => .refl _) fuel _ _ e3
  have l1 := mod_len e5
  have tail : ∀ t2 : BTree κ δ, t2.arr.length = t1.arr.length → t2.num = t1.num →
      ∀ t3, modIf t2 m.right (fun n => { n with parent := some s.par }) = .ok t3 → ∀ q, delSlot t3 s.twalk s.par = .ok q → ∀ t4,
      updateSize fuel q.1 q.2 = .ok t4 →
      cDelSlot { onC t with t := t3 } s.twalk s.par = .ok (onC q.1, q.2) ∧ cUpdateSize fuel (onC q.1).t q.2 = .ok t4 ∧
        ({ onC q.1 with t := t4 } : CTree κ δ) = onC t4 := by
    intro t2 h2 h2' t3 e7 q e8 t4 e9
    have l3 := modIf_len e7
    have hl : t3.arr.length = t.arr.length := by rw [l3.1, h2, l1.1]
    have hn : t3.num = t.num := by rw [l3.2.1, h2', l1.2.1]
    obtain ⟨h1, h2⟩ := le_delSlot t3 s.twalk s.par (by rw [hl, hn]; exact hg) q e8
    refine ⟨?_, le_updateSize _ _ _ _ e9, ?_⟩
    · rw [show ({ onC t with t := t3 } : CTree κ δ) = onC t3 by simp only [onC, hl], h1]
    · simp only [onC, updateSize_len e9]
  rw [show (onC t).t = t from rfl, le_node _ _ _ e1, ok_bind, le_idx _ _ e2, ok_bind, e3', ok_bind, le_node _ _ _ e4, ok_bind, le_mod _ _ _ _ e5, ok_bind]
  cases hf : s.flag with
  | true =>
    simp only [hf, if_true] at hr ⊢
    obtain ⟨t2, e6, hr⟩ := Py.bind_ok hr
    obtain ⟨t3, e7, hr⟩ := Py.bind_ok hr
    obtain ⟨q, e8, hr⟩ := Py.bind_ok hr
    obtain ⟨t4, e9, hr⟩ := Py.bind_ok hr
    cases hr
    obtain ⟨a, b, c⟩ := tail t2 (mod_len e6).1 (mod_len e6).2.1 t3 e7 q e8 t4 e9
    rw [le_mod _ _ _ _ e6, ok_bind, le_modIf _ _ _ _ e7, ok_bind, a, ok_bind, b, ok_bind, c]
  | false =>
    simp only [hf, Bool.false_eq_true, if_false] at hr ⊢
    obtain ⟨t2, e6, hr⟩ := Py.bind_ok hr
    obtain ⟨t3, e7, hr⟩ := Py.bind_ok hr
    obtain ⟨q, e8, hr⟩ := Py.bind_ok hr
    obtain ⟨t4, e9, hr⟩ := Py.bind_ok hr
    cases hr
    obtain ⟨a, b, c⟩ := tail t2 (mod_len e6).1 (mod_len e6).2.1 t3 e7 q e8 t4 e9
    rw [le_mod _ _ _ _ e6, ok_bind, le_modIf _ _ _ _ e7, ok_bind, a, ok_bind, b, ok_bind, c]

theorem le_delOneRoot (t : BTree κ δ) (x : Nat) (hg : t.arr.length ≤ 4 * (t.num - 1)) : ∀ r,
    delOneRoot t x = .ok r → cDelOneRoot (onC t) x = .ok (onC r.1, r.2) := by
  intro r hr
  unfold delOneRoot at hr
  unfold cDelOneRoot
  obtain ⟨n, e1, hr⟩ := Py.bind_ok hr
  obtain ⟨t1, e2, hr⟩ := Py.bind_ok hr
  obtain ⟨q, e3, hr⟩ := Py.bind_ok hr
  have l1 := mod_len e2
  obtain ⟨h1, h2, h3⟩ := le_atDelete t1 x (by rw [l1.1, l1.2.1]; exact hg) q e3
  obtain ⟨q1, q2⟩ := q
  dsimp only at h1 h2 h3 hr
  subst h2
  dsimp only at hr
  cases hr
  rw [show (onC t).t = t from rfl, le_node _ _ _ e1, ok_bind, le_mod _ _ _ _ e2, ok_bind,
    show ({ onC t with t := t1 } : CTree κ δ) = onC t1 by simp only [onC, l1.1], h1, ok_bind]

theorem le_delOneInner (fuel : Nat) (t : BTree κ δ) (w x p : Nat) (hg : t.arr.length ≤ 4 * (t.num - 1)) : ∀ r,
    delOneInner fuel t w x p = .ok r → cDelOneInner fuel (onC t) w x p = .ok (onC r.1, r.2) := by
  intro r hr
  unfold delOneInner at hr
  unfold cDelOneInner
  obtain ⟨t1, e1, hr⟩ := Py.bind_ok hr
  obtain ⟨t2, e2, hr⟩ := Py.bind_ok hr
  obtain ⟨n1, e3, hr⟩ := Py.bind_ok hr
  obtain ⟨n2, e4, hr⟩ := Py.bind_ok hr
  obtain ⟨q, e5, hr⟩ := Py.bind_ok hr
  have l1 := turn_len e1
  have l2 := mod_len e2
  have hl : t2.arr.length = t.arr.length := by rw [l2.1, l1.1]
  have hn : t2.num = t.num := by rw [l2.2.1, l1.2]
  obtain ⟨h1, h2, h3⟩ := le_atDelete t2 w (by rw [hl, hn]; exact hg) q e5
  obtain ⟨q1, q2⟩ := q
  dsimp only at h1 h2 h3 hr
  subst h2
  dsimp only at hr
  obtain ⟨t3, e6, hr⟩ := Py.bind_ok hr
  cases hr
  rw [show (onC t).t = t from rfl, le_turn _ _ _ _ _ e1, ok_bind, le_mod _ _ _ _ e2, ok_bind, le_node _ _ _ e3, ok_bind, le_node _ _ _ e4, ok_bind,
    show ({ onC t with t := t2 } : CTree κ δ) = onC t2 by simp only [onC, hl], h1, ok_bind]
  show (cUpdateSize fuel q1 (some p) >>= _) = _
  rw [le_updateSize _ _ _ _ e6, ok_bind]
  simp only [onC, updateSize_len e6]

/-- `delete` without a contraction. -/
theorem le_delete (lt : κ → κ → Bool) (fuel : Nat) (t : BTree κ δ) (k : κ)
    (hg : t.arr.length ≤ 4 * (t.num - 1) ∨ bstSearch lt fuel t k = .ok none ∨
      ∃ w n, bstSearchP lt fuel t k = .ok (some (some w, none)) ∧ getNode t w = .ok n ∧ n.left = none ∧ n.right = none) : ∀ r,
    bstDelete lt fuel t k = .ok r → cBstDelete (ofLt lt) fuel (onC t) k = .ok (onC r.1, r.2) := by
  intro r hr
  unfold bstDelete bstDeleteInfo at hr
  unfold cBstDelete
  obtain ⟨q, e, hr⟩ := Py.bind_ok hr
  obtain ⟨o, e1, e⟩ := Py.bind_ok e
  rw [show (onC t).t = t from rfl, le_searchP _ _ _ _ _ e1, ok_bind]
  match o, e1, e with
  | none, _, e => cases e
  | some (none, _), _, e => cases e; cases hr; rfl
  | some (some w, p), e1, e =>
    dsimp only at e ⊢
    obtain ⟨n, e2, e⟩ := Py.bind_ok e
    obtain ⟨s, e3, e⟩ := Py.bind_ok e
    cases e
    cases hr
    rw [le_node _ _ _ e2, ok_bind]
    have key : cDelCases fuel (onC t) w p n = .ok (onC s.1, s.2) := by
      unfold delCases at e3
      unfold cDelCases
      rcases hg with hg | hg | ⟨w', n', g1, g2, g3, g4⟩
      · cases hl : n.left with
        | none => cases hr : n.right with
          | none => rw [hl, hr] at e3; exact le_delLeaf fuel t w p (.inr hg) _ e3
          | some x =>
            rw [hl, hr] at e3
            cases p with
            | none => exact le_delOneRoot t _ hg _ e3
            | some p => exact le_delOneInner fuel t w _ _ hg _ e3
        | some y => cases hr : n.right with
          | none =>
            rw [hl, hr] at e3
            cases p with
            | none => exact le_delOneRoot t _ hg _ e3
            | some p => exact le_delOneInner fuel t w _ _ hg _ e3
          | some x => rw [hl, hr] at e3; exact le_delTwo fuel t w hg _ e3
      · simp only [bstSearch, e1, ok_bind] at hg
        cases hg
      · rw [e1] at g1
        cases g1
        rw [e2] at g2
        cases g2
        rw [g3, g4] at e3 ⊢
        exact le_delLeaf fuel t w none (.inl rfl) _ e3
    rw [key, ok_bind]

end Props
