import Verif.Model.CppSplay
import Verif.Lemmas.CppRb
import Verif.Lemmas.CppContract
import Verif.Lemmas.CppTree

/-!
# The C++ splay tree follows the Python one
-/
namespace Props
open Py Model Model.Cpp Spec
set_option linter.unusedSectionVars false
variable {κ δ : Type} [DecidableEq κ]

theorem le_zig (t : BTree κ δ) (x p : Nat) : Le (zig t x p) (cZig t x p) := by
  refine (le_node _ _).bind fun n _ => ?_
  split
  · exact le_rightRotate _ _ _
  · exact le_leftRotate _ _ _

theorem le_zigZig (t : BTree κ δ) (x p g : Nat) : Le (zigZig t x p g) (cZigZig t x p g) := (le_rightRotate _ _ _).bind fun _ _ => le_rightRotate _ _ _
theorem le_zagZag (t : BTree κ δ) (x p g : Nat) : Le (zagZag t x p g) (cZagZag t x p g) := (le_leftRotate _ _ _).bind fun _ _ => le_leftRotate _ _ _

theorem steady_zig (t : BTree κ δ) (x p : Nat) : Steady t (zig t x p) :=
  .read fun _ => .ite (steady_rightRotate _ _ _) (steady_leftRotate _ _ _)
theorem steady_zigZig (t : BTree κ δ) (x p g : Nat) : Steady t (zigZig t x p g) := .write (.refl t) (steady_rightRotate _ _ _) fun _ h => .from h (steady_rightRotate _ _ _)
theorem steady_zagZag (t : BTree κ δ) (x p g : Nat) : Steady t (zagZag t x p g) := .write (.refl t) (steady_leftRotate _ _ _) fun _ h => .from h (steady_leftRotate _ _ _)

theorem le_splayBody (x : Nat) (s : BTree κ δ × Option Nat) : Le (splayBody x s) (cSplayBody x s) := by
  refine (le_idx _).bind fun p _ => (le_node _ _).bind fun n _ => ?_
  cases hp : n.parent with
  | none => exact (le_zig _ _ _).bind fun _ _ => (le_node _ _).bind fun _ _ => .refl _
  | some g =>
    refine (le_node _ _).bind fun m _ => ?_
    split
    · exact (le_zigZig _ _ _ _).bind fun _ _ => (le_node _ _).bind fun _ _ => .refl _
    · split
      · exact (le_zagZag _ _ _ _).bind fun _ _ => (le_node _ _).bind fun _ _ => .refl _
      · split
        · exact (le_rightLeftRotate _ _ _).bind fun _ _ => (le_node _ _).bind fun _ _ => .refl _
        · exact (le_leftRightRotate _ _ _).bind fun _ _ => (le_node _ _).bind fun _ _ => .refl _

theorem le_splay (fuel : Nat) (t : BTree κ δ) (x : Nat) (p : Option Nat) : Le (splay fuel t x p) (cSplay fuel t x p) :=
  (Le.while_ (fun _ => (le_node _ _).bind fun _ _ => .refl _) (le_splayBody x) fuel _).bind fun _ _ => .refl _

theorem steadyM_rest {x : Nat} {t : BTree κ δ} {a : PyM (BTree κ δ)} (h : Steady t a) :
    SteadyM Prod.fst t (a >>= fun t => (getNode t x >>= fun n => .ok (t, n.parent) : PyM (BTree κ δ × Option Nat))) := by
  intro r hr
  obtain ⟨t1, e1, hr⟩ := Py.bind_ok hr
  obtain ⟨n, _, hr⟩ := Py.bind_ok hr
  cases hr
  exact h _ e1

theorem steadyM_splayBody (x : Nat) (s : BTree κ δ × Option Nat) : SteadyM Prod.fst s.1 (splayBody x s) := by
  refine .read fun p => .read fun n => ?_
  cases hp : n.parent with
  | none => exact steadyM_rest (steady_zig _ _ _)
  | some g =>
    refine .read fun m => ?_
    split
    · exact steadyM_rest (steady_zigZig _ _ _ _)
    · split
      · exact steadyM_rest (steady_zagZag _ _ _ _)
      · split
        · exact steadyM_rest (steady_rightLeftRotate _ _ _)
        · exact steadyM_rest (steady_leftRightRotate _ _ _)

theorem steady_splay (fuel : Nat) (t : BTree κ δ) (x : Nat) (p : Option Nat) : Steady t (splay fuel t x p) := by
  intro r h
  obtain ⟨s, e, h⟩ := Py.bind_ok h
  cases h
  exact while_inv (fun s => SameLen t s.1) (fun s s' hs hb => hs.trans (steadyM_splayBody x s s' hb)) fuel (t, p) _ (SameLen.refl t) e

theorem le_searchPair (lt : κ → κ → Bool) (fuel : Nat) (t : BTree κ δ) (k : κ) : Le (searchPair lt fuel t k) (cSearchPair (ofLt lt) fuel t k) := by
  refine (le_searchP lt fuel t k).bind fun o _ => ?_
  cases o with
  | none => exact .error
  | some r => exact .refl _

/-- `insert`, given that the insertion into the binary search tree follows. -/
theorem le_splayInsert {lt : κ → κ → Bool} {fuel : Nat} {t t1 t2 : BTree κ δ} {k : κ} {d : Option δ}
    (h1 : bstInsert lt fuel t k d = .ok t1) (h2 : splayInsert lt fuel t k d = .ok t2)
    (hc : cInsert (ofLt lt) fuel (onC t) k d = .ok (onC t1)) : cSplayInsert (ofLt lt) fuel (onC t) k d = .ok (onC t2) := by
  simp only [splayInsert, h1, ok_bind] at h2
  obtain ⟨⟨e, p⟩, e1, h2⟩ := Py.bind_ok h2
  obtain ⟨t3, e2, h2⟩ := Py.bind_ok h2
  obtain ⟨x, e3, h2⟩ := Py.bind_ok h2
  simp only [cSplayInsert, hc, ok_bind, show (onC t1).t = t1 from rfl, le_searchPair _ _ _ _ _ e1, le_mod _ _ _ _ e2, le_idx _ _ e3, le_splay _ _ _ _ _ h2]
  show Except.ok (⟨t2, t1.arr.length⟩ : CTree κ δ) = _
  rw [onC_len ((steady_mod _ _ _ _ e2).trans (steady_splay _ _ _ _ _ h2))]

/-- `delete`, given that the deletion from the splayed tree follows. -/
theorem le_splayDelete {lt : κ → κ → Bool} {fuel : Nat} {t : BTree κ δ} {k : κ}
    (hd : ∀ e p t2, bstSearchP lt fuel t k = .ok (some (some e, p)) → splay fuel t e p = .ok t2 → ∀ r, bstDelete lt fuel t2 k = .ok r → cBstDelete (ofLt lt) fuel (onC t2) k = .ok (onC r.1, r.2)) :
    ∀ r, splayDelete lt fuel t k = .ok r → cSplayDelete (ofLt lt) fuel (onC t) k = .ok (onC r.1, r.2) := by
  intro r h
  obtain ⟨⟨e, p⟩, e1, h⟩ := Py.bind_ok h
  simp only [cSplayDelete, show (onC t).t = t from rfl, le_searchPair _ _ _ _ _ e1, ok_bind]
  cases e with
  | none => cases h; rfl
  | some e =>
    dsimp only at h ⊢
    obtain ⟨t2, e2, h⟩ := Py.bind_ok h
    rw [le_splay _ _ _ _ _ e2, ok_bind]
    show cBstDelete _ _ (⟨t2, t.arr.length⟩ : CTree κ δ) _ = _
    rw [onC_len (steady_splay _ _ _ _ _ e2)]
    refine hd e p t2 ?_ e2 r h
    obtain ⟨o, e3, e1⟩ := Py.bind_ok e1
    cases o with
    | none => cases e1
    | some q => cases e1; exact e3

/-! ## Arrays filled from the front -/

/-- The cells in use are the first ones, and at least about half of the array is in use. -/
def Tight (t : BTree κ δ) : Prop := t.top = t.num ∧ 1 ≤ t.num ∧ t.top ≤ t.arr.length ∧ t.arr.length + 1 ≤ 2 * t.num

theorem Tight.same {t r : BTree κ δ} (h : Tight t) (hs : SameLen t r) : Tight r := by
  obtain ⟨s1, s2, s3, _⟩ := hs
  unfold Tight; rw [s1, s2, s3]; exact h

theorem Tight.grown {t : BTree κ δ} (h : Tight t) : t.top ≤ t.arr.length ∧ Props.grown t ≤ 4 * (t.num + 1) := by
  obtain ⟨h1, h2, h3, h4⟩ := h
  refine ⟨h3, ?_⟩
  unfold Props.grown; split <;> omega

theorem Tight.empty (os : Bool) : Tight (btEmpty os : BTree κ δ) := ⟨rfl, Nat.le_refl _, Nat.le_refl _, Nat.le_refl _⟩

theorem tight_append {t r : BTree κ δ} {n : BNode κ δ} (h : Tight t) (hr : atAppend t n = .ok r) : Tight r := by
  have hg := h.grown
  obtain ⟨h1, h2, h3, h4⟩ := h
  unfold atAppend at hr
  have e : (if t.top = t.arr.length then t.arr ++ some n :: List.replicate (2 * t.arr.length + 1 - (t.arr.length + 1)) none else t.arr.set t.top (some n)).length = grown t := by
    unfold grown
    split <;> simp <;> omega
  simp only at hr
  rw [modify_no (by simp only [e]; exact hg.2)] at hr
  cases hr
  unfold Tight
  simp only [e]
  unfold grown
  split <;> omega

theorem tight_here {t r : BTree κ δ} {w : Nat} {prev : Option Nat} {k : κ} {d : Option δ} {link : Nat → BNode κ δ → BNode κ δ} (h : Tight t)
    (hr : insertHere t w prev k d link = .ok r) : Tight r := by
  obtain ⟨t1, e1, hr⟩ := Py.bind_ok hr
  obtain ⟨t2, e2, hr⟩ := Py.bind_ok hr
  cases hr
  have := (tight_append h e1).same (steady_mod _ _ _ _ e2)
  exact this

theorem tight_body {lt : κ → κ → Bool} {k : κ} {d : Option δ} {s r : InsertSt κ δ} (h : Tight s.t) (hr : insertBody lt k d s = .ok r) : Tight r.t := by
  obtain ⟨w, _, hr⟩ := Py.bind_ok hr
  obtain ⟨n, _, hr⟩ := Py.bind_ok hr
  obtain ⟨b, _, hr⟩ := Py.bind_ok hr
  split at hr
  · split at hr
    · obtain ⟨t1, e1, hr⟩ := Py.bind_ok hr
      obtain ⟨m, _, hr⟩ := Py.bind_ok hr
      cases hr
      exact tight_here h e1
    · cases hr; exact h
  · split at hr
    · obtain ⟨t1, e1, hr⟩ := Py.bind_ok hr
      obtain ⟨m, _, hr⟩ := Py.bind_ok hr
      cases hr
      exact tight_here h e1
    · cases hr; exact h

theorem steady_updateSize (fuel : Nat) (t : BTree κ δ) (o : Option Nat) : Steady t (updateSize fuel t o) := by
  intro r h
  unfold updateSize at h
  split at h
  · obtain ⟨s, e, h⟩ := Py.bind_ok h
    cases h
    refine while_inv (fun s : BTree κ δ × Option Nat => SameLen t s.1) (fun s s' hs hb => hs.trans ?_) fuel (t, o) _ (SameLen.refl t) e
    obtain ⟨w, _, hb⟩ := Py.bind_ok hb
    obtain ⟨t1, e1, hb⟩ := Py.bind_ok hb
    obtain ⟨n, _, hb⟩ := Py.bind_ok hb
    cases hb
    unfold resize at e1
    have : Steady s.1 (do
      let n ← getNode s.1 w
      let a ← leftSize s.1 n
      let b ← rightSize s.1 n
      modNode s.1 w (fun n => { n with size := a + b + 1 })) := .read fun _ => .read fun _ => .read fun _ => steady_mod _ _ _
    exact this _ e1
  · cases h; exact .refl _

theorem tight_insert {lt : κ → κ → Bool} {fuel : Nat} {t r : BTree κ δ} {k : κ} {d : Option δ} (h : Tight t) (hr : bstInsert lt fuel t k d = .ok r) : Tight r := by
  obtain ⟨o, _, hr⟩ := Py.bind_ok hr
  cases o with
  | some i => exact h.same (steady_mod _ _ _ _ hr)
  | none =>
    obtain ⟨n, _, hr⟩ := Py.bind_ok hr
    split at hr
    · exact h.same (steady_mod _ _ _ _ hr)
    · obtain ⟨s, e, hr⟩ := Py.bind_ok hr
      have : Tight s.t := while_inv (fun s : InsertSt κ δ => Tight s.t) (fun s s' hs hb => tight_body hs hb) fuel _ _ h e
      exact this.same (steady_updateSize _ _ _ _ hr)

/-- Inserting into an array filled from the front, for any comparison. -/
theorem le_insert_tight {lt : κ → κ → Bool} {fuel : Nat} {t r : BTree κ δ} {k : κ} {d : Option δ} (h : Tight t) (hr : bstInsert lt fuel t k d = .ok r) :
    cInsert (ofLt lt) fuel (onC t) k d = .ok (onC r) ∧ Tight r :=
  ⟨le_insert lt fuel t k d (.inl h.grown) _ hr, tight_insert h hr⟩

theorem le_splayInsert_tight {lt : κ → κ → Bool} {fuel : Nat} {t r : BTree κ δ} {k : κ} {d : Option δ} (h : Tight t) (hr : splayInsert lt fuel t k d = .ok r) :
    cSplayInsert (ofLt lt) fuel (onC t) k d = .ok (onC r) ∧ Tight r := by
  have h2 := hr
  unfold splayInsert at h2
  obtain ⟨t1, e1, h2⟩ := Py.bind_ok h2
  obtain ⟨hc, ht⟩ := le_insert_tight h e1
  refine ⟨le_splayInsert e1 hr hc, ?_⟩
  obtain ⟨⟨e, p⟩, _, h2⟩ := Py.bind_ok h2
  obtain ⟨t3, e2, h2⟩ := Py.bind_ok h2
  obtain ⟨x, e3, h2⟩ := Py.bind_ok h2
  exact (ht.same (steady_mod _ _ _ _ e2)).same (steady_splay _ _ _ _ _ h2)

/-! ## split -/

theorem le_splayPre (fuel : Nat) (t : BTree κ δ) (i : Nat) : Le (treeDfs fuel t .pre (some i)) (cSplayPreOrder fuel t i) := by
  exact le_pre fuel t i

theorem le_splitInserts (lt : κ → κ → Bool) (fuel : Nat) : ∀ (els : List (BNode κ δ)) (o r : BTree κ δ), Tight o → forList els o (splitInsert lt fuel) = .ok r →
    forList els (onC o) (cSplitInsert (ofLt lt) fuel) = .ok (onC r) := by
  intro els
  induction els with
  | nil => intro o r _ h; cases h; rfl
  | cons n els ih =>
    intro o r ho h
    simp only [forList] at h ⊢
    obtain ⟨o1, e1, h⟩ := Py.bind_ok h
    unfold splitInsert at e1
    unfold cSplitInsert
    cases hk : n.key with
    | none => rw [hk] at e1; cases e1
    | some k =>
      rw [hk] at e1
      obtain ⟨h1, h2⟩ := le_insert_tight ho e1
      simp only [h1, ok_bind]
      exact ih o1 r h2 h

theorem le_splitClear (lt : κ → κ → Bool) (fuel : Nat) (n : BNode κ δ) (t : BTree κ δ) : Le (splitClear lt fuel n t) (cSplitClear (ofLt lt) fuel n t) := by
  unfold splitClear cSplitClear
  cases n.key with
  | none => exact .error
  | some k =>
    refine (le_searchPair _ _ _ _).bind fun q _ => ?_
    obtain ⟨e, p⟩ := q
    refine (le_idx _).bind fun e _ => ?_
    intro r h
    obtain ⟨arr, e1, h⟩ := Py.bind_ok h
    cases h
    unfold wr at e1
    split at e1
    · rename_i hlt; cases e1; rw [if_pos hlt]
    · cases e1

theorem clear_len {lt : κ → κ → Bool} {fuel : Nat} {n : BNode κ δ} {t r : BTree κ δ} (h : splitClear lt fuel n t = .ok r) : SameLen t r := by
  unfold splitClear at h
  split at h
  · obtain ⟨⟨e, p⟩, _, h⟩ := Py.bind_ok h
    obtain ⟨e, _, h⟩ := Py.bind_ok h
    obtain ⟨arr, e1, h⟩ := Py.bind_ok h
    cases h
    unfold wr at e1
    split at e1
    · cases e1; exact ⟨by simp, rfl, rfl, rfl⟩
    · cases e1
  · cases h

theorem clears_len {lt : κ → κ → Bool} {fuel : Nat} : ∀ (els : List (BNode κ δ)) (t r : BTree κ δ), forList els t (splitClear lt fuel) = .ok r → SameLen t r := by
  intro els
  induction els with
  | nil => intro t r h; cases h; exact .refl _
  | cons n els ih =>
    intro t r h
    simp only [forList] at h
    obtain ⟨t1, e1, h⟩ := Py.bind_ok h
    exact (clear_len e1).trans (ih t1 r h)

/-- `split` follows, without conditions. -/
theorem le_splaySplit (lt : κ → κ → Bool) (fuel : Nat) (t : BTree κ δ) (x : κ) : ∀ r, splaySplit lt fuel t x = .ok r →
    cSplaySplit (ofLt lt) fuel (onC t) x = .ok (onC r.1, r.2.map onC) := by
  intro r h
  obtain ⟨⟨e, p⟩, e1, h⟩ := Py.bind_ok h
  simp only [cSplaySplit, show (onC t).t = t from rfl, le_searchPair _ _ _ _ _ e1, ok_bind]
  cases e with
  | none => cases h; rfl
  | some e =>
    dsimp only at h ⊢
    obtain ⟨t2, e2, h⟩ := Py.bind_ok h
    obtain ⟨n, e3, h⟩ := Py.bind_ok h
    have hl := steady_splay _ _ _ _ _ e2
    simp only [le_splay _ _ _ _ _ e2, ok_bind, le_node _ _ _ e3]
    rw [show (ctNew false none none : PyM (CTree κ δ)) = .ok (onC (btEmpty false)) from rfl, ok_bind]
    cases hr : n.right with
    | none =>
      rw [hr] at h
      cases h
      show Except.ok ((⟨t2, t.arr.length⟩ : CTree κ δ), _) = _
      rw [onC_len hl]
      rfl
    | some i =>
      rw [hr] at h
      dsimp only at h ⊢
      obtain ⟨els, e4, h⟩ := Py.bind_ok h
      obtain ⟨o, e5, h⟩ := Py.bind_ok h
      obtain ⟨t3, e6, h⟩ := Py.bind_ok h
      obtain ⟨t4, e7, h⟩ := Py.bind_ok h
      cases h
      rw [le_splayPre _ _ _ _ e4, ok_bind, le_splitInserts _ _ _ _ _ (Tight.empty false) e5, ok_bind, Le.forList (fun _ _ => le_splitClear lt fuel _ _) _ _ _ e6, ok_bind,
        le_mod _ _ _ _ e7, ok_bind]
      show Except.ok ((⟨t4, t.arr.length⟩ : CTree κ δ), _) = _
      rw [onC_len (hl.trans ((clears_len _ _ _ e6).trans (steady_mod _ _ _ _ e7)))]
      rfl

/-! ## join -/

theorem le_joinMax (fuel : Nat) (t : BTree κ δ) (i : Nat) : Le (whileLoop fuel (joinMaxCond t) (joinMaxBody t) i) (whileLoop fuel (cJoinMaxCond t) (cJoinMaxBody t) i) :=
  Le.while_ (fun _ => (le_node _ _).bind fun _ _ => .refl _) (fun _ => (le_node _ _).bind fun _ _ => le_idx _) fuel i

theorem le_joinMin (fuel : Nat) (t : BTree κ δ) (i : Nat) : Le (whileLoop fuel (joinMinCond t) (joinMinBody t) i) (whileLoop fuel (cJoinMinCond t) (cJoinMinBody t) i) :=
  Le.while_ (fun _ => (le_node _ _).bind fun _ _ => .refl _) (fun _ => (le_node _ _).bind fun _ _ => le_idx _) fuel i

/-- Appending a copy without a contraction. -/
theorem le_joinAppend {up : Nat} {x : Option (BNode κ δ)} {t r : BTree κ δ} (h : Tight t) (hr : joinAppend up x t = .ok r) : cJoinAppend up x (onC t) = .ok (onC r) ∧ Tight r := by
  have hg := h.grown
  obtain ⟨h1, h2, h3, h4⟩ := h
  have e : (if t.top = t.arr.length then t.arr ++ x.map (joinCopy up) :: List.replicate (2 * t.arr.length + 1 - (t.arr.length + 1)) none
      else t.arr.set t.top (x.map (joinCopy up))).length = grown t := by
    unfold grown
    split <;> simp <;> omega
  unfold joinAppend at hr
  simp only at hr
  rw [modify_no (by simp only [e]; exact hg.2)] at hr
  cases hr
  unfold cJoinAppend
  show _ ∧ Tight _
  constructor
  · rw [show (onC t).t = t from rfl, show (onC t).oda = t.arr.length from rfl]
    by_cases htop : t.top = t.arr.length
    · simp only [if_pos htop] at e ⊢
      have e' : (t.arr ++ x.map (cJoinCopy up) :: List.replicate (2 * t.arr.length + 1 - (t.top + 1)) none).length = 2 * t.arr.length + 1 := by simp; omega
      rw [cModify_no (by simp only [e']; omega)]
      simp only [onC, ok_bind, htop]
      congr 2
      simp
      omega
    · simp only [if_neg htop] at e ⊢
      rw [if_pos (by omega), cModify_no (by simp only [List.length_set]; omega)]
      simp only [onC, ok_bind, List.length_set]
      rfl
  · unfold Tight
    simp only [e]
    unfold grown
    split <;> omega

theorem le_joinAppends (up : Nat) : ∀ (l : List (Option (BNode κ δ))) (t r : BTree κ δ), Tight t → forList l t (joinAppend up) = .ok r →
    forList l (onC t) (cJoinAppend up) = .ok (onC r) := by
  intro l
  induction l with
  | nil => intro t r _ h; cases h; rfl
  | cons x l ih =>
    intro t r ht h
    simp only [forList] at h ⊢
    obtain ⟨t1, e1, h⟩ := Py.bind_ok h
    obtain ⟨a, b⟩ := le_joinAppend ht e1
    rw [a, ok_bind]
    exact ih t1 r b h

/-- `join` on an array that is filled from the front. -/
theorem le_splayJoin (lt : κ → κ → Bool) (fuel : Nat) (t o : BTree κ δ) (ht : Tight t) : ∀ r, splayJoin lt fuel t o = .ok r →
    cSplayJoin (ofLt lt) fuel (onC t) (onC o) = .ok (onC r) := by
  intro r h
  obtain ⟨mx, e1, h⟩ := Py.bind_ok h
  obtain ⟨mn, e2, h⟩ := Py.bind_ok h
  obtain ⟨a, e3, h⟩ := Py.bind_ok h
  obtain ⟨b, e4, h⟩ := Py.bind_ok h
  obtain ⟨l, e5, h⟩ := Py.bind_ok h
  simp only [cSplayJoin, show ∀ u : BTree κ δ, (onC u).t = u from fun _ => rfl, le_joinMax _ _ _ _ e1, le_joinMin _ _ _ _ e2, le_node _ _ _ e3, le_node _ _ _ e4, cmp_inv e5, ok_bind]
  cases l with
  | false => cases h
  | true =>
    simp only [if_true] at h ⊢
    rw [if_neg (by decide)]
    obtain ⟨t2, e6, h⟩ := Py.bind_ok h
    obtain ⟨t3, e7, h⟩ := Py.bind_ok h
    have hl := steady_splay _ _ _ _ _ e6
    rw [le_splay _ _ _ _ _ e6, ok_bind]
    show cJoinCopyAll (⟨t2, t.arr.length⟩ : CTree κ δ) _ = _
    rw [onC_len hl]
    unfold cJoinCopyAll
    rw [if_pos (show (onC o).oda ≤ (onC o).t.arr.length from Nat.le_refl _)]
    simp only [onC, List.take_length]
    rw [show (⟨t2, t2.arr.length⟩ : CTree κ δ) = onC t2 from rfl, le_joinAppends _ _ _ _ (ht.same hl) e7, ok_bind, show (onC t3).t = t3 from rfl, le_mod _ _ _ _ h, ok_bind]
    exact congrArg _ (onC_mod h)

/-- `join` refuses what the Python method refuses. -/
theorem le_splayJoin_refused (lt : κ → κ → Bool) (fuel : Nat) (t o : BTree κ δ) {mx mn : Nat} {a b : BNode κ δ}
    (e1 : whileLoop fuel (joinMaxCond t) (joinMaxBody t) t.rootIdx = .ok mx) (e2 : whileLoop fuel (joinMinCond o) (joinMinBody o) o.rootIdx = .ok mn)
    (e3 : getNode t mx = .ok a) (e4 : getNode o mn = .ok b) (e5 : cmpKey lt a.key b.key = .ok false) :
    cSplayJoin (ofLt lt) fuel (onC t) (onC o) = .error .valueError := by
  simp only [cSplayJoin, show ∀ u : BTree κ δ, (onC u).t = u from fun _ => rfl, le_joinMax _ _ _ _ e1, le_joinMin _ _ _ _ e2, le_node _ _ _ e3, le_node _ _ _ e4, cmp_inv e5, ok_bind]
  rfl

end Props
