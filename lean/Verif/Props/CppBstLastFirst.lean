import Verif.Props.BstLastFirst
import Verif.Props.Backends

/-!
# C107 and C125: the keys deleted last-inserted-first, across every contraction of the array
-/
namespace Props
open Py Model Model.Cpp Spec
set_option linter.unusedSectionVars false
variable {κ δ : Type} [DecidableEq κ]

theorem le_findsLeaf {lt : κ → κ → Bool} {fuel o : Nat} {t : BTree κ δ} {k : κ} (h : FindsLeaf lt fuel t k) :
    ∀ r, bstDelete lt fuel t k = .ok r → cBstDelete (ofLt lt) fuel ⟨t, o⟩ k = .ok (⟨r.1, o⟩, r.2) := by
  rcases h with ⟨p, h⟩ | ⟨w, q, n, h1, h2, h3, h4⟩
  · intro r hr
    simp only [bstDelete, bstDeleteInfo, h, ok_bind] at hr
    cases hr
    simp only [cBstDelete, le_searchP _ _ _ _ _ h, ok_bind]
  · exact le_deleteLeaf h1 h2 h3 h4

theorem le_findLeaves {lt : κ → κ → Bool} {fuel o : Nat} : ∀ (dels : List κ) (t : BTree κ δ), FindLeaves lt fuel t dels →
    ∀ r, bstRun lt fuel t (deletesOf dels) = .ok r → cRun (ofLt lt) fuel ⟨t, o⟩ (deletesOf dels) = .ok (⟨r.1, o⟩, r.2) := by
  intro dels
  induction dels with
  | nil => intro t _ r hr; cases hr; rfl
  | cons k dels ih =>
    rintro t ⟨h1, h2⟩ r hr
    simp only [deletesOf, List.map_cons, bstRun, bstStep] at hr
    obtain ⟨a, e1, hr⟩ := Py.bind_ok hr
    obtain ⟨b, e2, hr⟩ := Py.bind_ok hr
    cases hr
    have e3 := ih a.1 (h2 a e1) b e2
    have e3' : cRun (ofLt lt) fuel ⟨a.1, o⟩ (List.map (fun k => BstOp.delete k) dels) = .ok (⟨b.1, o⟩, b.2) := e3
    simp only [deletesOf, List.map_cons, cRun, cStep, le_findsLeaf h1 a e1, ok_bind, e3']

theorem cRun_append (cmp : κ → κ → Int) (fuel : Nat) : ∀ (a b : List (BstOp κ δ)) (c : CTree κ δ),
    cRun cmp fuel c (a ++ b) = (do let r ← cRun cmp fuel c a; let q ← cRun cmp fuel r.1 b; .ok (q.1, r.2 ++ q.2)) := by
  intro a
  induction a with
  | nil => intro b c; cases h : cRun cmp fuel c b with
    | error e => simp [cRun, h]
    | ok q => simp [cRun, h]
  | cons op a ih =>
    intro b c
    simp only [List.cons_append, cRun]
    cases h : cStep cmp fuel c op with
    | error e => rfl
    | ok r =>
      simp only [ok_bind, ih]
      cases h2 : cRun cmp fuel r.1 a with
      | error e => rfl
      | ok q =>
        simp only [ok_bind]
        cases h3 : cRun cmp fuel q.1 b with
        | error e => rfl
        | ok q' => rfl

/-- **C125** for different keys, inserted in any order and then deleted in the opposite order: both back ends carry out the calls, with the same answers. -/
theorem C125_bst_last_first_partial {lt : κ → κ → Bool} (ht : StrictTotal (ltRel lt)) (ins : List (κ × Option δ)) (hd : (ins.map (·.1)).Nodup)
    (dels : List κ) (hl : LastFirst (ins.map (·.1)).reverse dels) :
    SameRun lt (fun n => bstRun lt n (btEmpty false) (insertsOf ins ++ deletesOf dels)) (fun n => cHistory (ofLt lt) n (insertsOf ins ++ deletesOf dels))
      (bstContents [] (insertsOf ins ++ deletesOf dels)) := by
  obtain ⟨t, hrun, hserves⟩ := C73_last_first_partial ht ins hd dels hl
  obtain ⟨t1, h1, n1, r1⟩ := peel_inserts ht ins [] (btEmpty false) [] (.inl ⟨rfl, rfl, Cleared.empty⟩) fullOf_empty (fun _ => rfl) hd (by simp)
  obtain ⟨t2, ks, h2, ⟨n2, r2⟩, n3, r3⟩ := peel_deletes ht dels _ t1 _ h1 (by simpa using hl)
  obtain ⟨n4, r4⟩ := le_run ht (insertsOf ins) (btEmpty false) [] (BstHas.empty lt) (by
    obtain ⟨n0, h⟩ := copes_fill ht [] ins (btEmpty false) [] (BstHas.empty lt) fullOf_empty (fun _ _ _ => ⟨0, fun _ _ => trivial⟩)
    exact ⟨n0, fun fuel hf => by simpa using h fuel hf⟩)
  obtain ⟨n5, r5⟩ := hrun
  refine ⟨t, ⟨t, (onC t1).oda⟩, _, ⟨n5, r5⟩, ⟨n1 + n2 + n3 + n4 + n5, fun n hn => ?_⟩, hserves.same _⟩
  have e1 := r1 n (by omega)
  have e2 := r2 n (by omega)
  have e5 := r5 n (by omega)
  dsimp only at e1 e2 e5
  rw [bstRun_append, e1, ok_bind, e2, ok_bind] at e5
  obtain ⟨e6, e7⟩ := Prod.mk.inj (Except.ok.inj e5)
  dsimp only at e6 e7
  rw [← e7, ← e6]
  have e4 := r4 n (by omega) _ e1
  have e3 := le_findLeaves (o := (onC t1).oda) dels t1 (r3 n (by omega)) _ e2
  simp only [cHistory, ctNew_empty, ok_bind]
  rw [cRun_append, e4, ok_bind]
  have e3' : cRun (ofLt lt) n (onC t1) (deletesOf dels) = _ := e3
  rw [e3', ok_bind]

/-- **C107** for different keys, inserted in any order and then deleted in the opposite order, down to the empty tree, across every contraction of the array;
`delete` may also be called for keys that are not there. Missing: see `C107_full_false`. -/
theorem C107_last_first_partial {lt : κ → κ → Bool} (ht : StrictTotal (ltRel lt)) (ins : List (κ × Option δ)) (hd : (ins.map (·.1)).Nodup)
    (dels : List κ) (hl : LastFirst (ins.map (·.1)).reverse dels) :
    ∃ c, EndsWith (fun n => cHistory (ofLt lt) n (insertsOf ins ++ deletesOf dels)) (.ok (c, bstReturns [] (insertsOf ins ++ deletesOf dels))) ∧
      CServes lt c.t (bstContents [] (insertsOf ins ++ deletesOf dels)) := by
  obtain ⟨t, ⟨n1, r1⟩, hs⟩ := C73_last_first_partial ht ins hd dels hl
  obtain ⟨t', c, rs, ⟨n2, r2⟩, hc, hsame⟩ := C125_bst_last_first_partial ht ins hd dels hl
  have e := (r1 (max n1 n2) (by omega)).symm.trans (r2 (max n1 n2) (by omega))
  cases e
  refine ⟨c, hc, ?_⟩
  have : c.t = t := hsame.1
  rw [this]
  exact hs.c

/-- The hypotheses are met (see also `BstLastFirst.lean`). -/
example : ([(4, none), (2, some "x"), (6, none), (1, none), (3, none), (5, none), (7, none), (8, none)].map (·.1) : List Nat).Nodup ∧
    LastFirst ([(4, none), (2, some "x"), (6, none), (1, none), (3, none), (5, none), (7, none), (8, none)].map (·.1)).reverse [9, 8, 7, 5, 3, 1, 6, 2, 4] := by
  simp [LastFirst]

end Props
