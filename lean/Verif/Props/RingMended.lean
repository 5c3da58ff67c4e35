import Verif.Props.LinkedList
import Verif.Lemmas.RingLoose

set_option linter.unusedSimpArgs false
/-!
# C41, all indices: a ring left open by index `-len` and closed again

`insert_at(-len, …)` and `extract(-len)` leave the link of the last node stale: the ring is open. An `insert_at` or `extract` with
index `0` closes it again, and so does emptying the list. While the ring is open, the calls that stop before the end of the list still
answer as they should.
-/
namespace Props
open Py Model Spec

variable {κ δ : Type}

/-- Whether the ring is known to be closed after the call, on the list `l`; `closed`: before the call. -/
def ringAfter (closed : Bool) (l : List (κ × δ)) : LOp κ δ → Bool
  | .insertAt i _ => if i > l.length then closed else if i = 0 ∨ l = [] then true else if i = -(l.length : Int) then false else closed
  | .appendleft _ => true
  | .append _ => if l = [] then true else closed
  | .extract i => if pyAt l.length i = none then closed else if i = 0 ∨ l.length = 1 then true else if i = -(l.length : Int) then false else closed
  | .popleft => true
  | .popright => if l.length = 1 then true else closed
  | _ => closed

/-- The calls that never look at the link of the last node: `insert_after` another node, `search` for a key that is there,
everything but `str` and reading `tail.next`. -/
def StopsBeforeEnd (l : List (κ × δ)) : LOp κ δ → Prop
  | .insertAfter i _ => pyAt l.length i ≠ some (l.length - 1)
  | .search k => ∃ x ∈ l, x.1 = k
  | .str | .ends => False
  | _ => True

/-- All documented indices; calls that look at the link of the last node are made while the ring is closed. -/
def AlongRing [DecidableEq κ] : Bool → List (κ × δ) → List (LOp κ δ) → Prop
  | _, _, [] => True
  | closed, l, op :: ops => Legal l op ∧ (closed = false → StopsBeforeEnd l op) ∧
    AlongRing (ringAfter closed l op) (listSpec true false l op).1 ops

/-- The object holds the list `l`, and its ring is closed if `closed` says so. -/
def RingInv (closed : Bool) (s : LL κ δ) (l : List (κ × δ)) : Prop :=
  ∃ ids j, RRep s ids l j ∧ (closed = true → ids = [] ∨ ids[0]? = some j)

theorem insertIdx_zero_get {ids : List Nat} {k f : Nat} (h : k ≠ 0) : (ids.insertIdx k f)[0]? = ids[0]? := by
  rw [List.getElem?_insertIdx, if_pos (by omega)]

theorem mended_insert {closed : Bool} {s : LL κ δ} {l : List (κ × δ)} (I : RingInv closed s l) (i : Int) (x : κ × δ)
    (hleg : Legal l (.insertAt i x)) :
    RingInv (ringAfter closed l (.insertAt i x)) (wrapUnit s (scllClass.insertAt s i x)).1 (specInsert l i x).1 ∧
      (wrapUnit s (scllClass.insertAt s i x)).2 = (specInsert l i x).2 := by
  obtain ⟨ids, j, R, hj⟩ := I
  have hlen := R.len
  have hsz := R.size
  simp only [Legal] at hleg
  unfold specInsert
  by_cases hfar : i > l.length
  · rw [if_pos hfar, scll_ok.insertFar s i x (by omega)]
    simp only [ringAfter, if_pos hfar, wrapUnit]
    exact ⟨⟨ids, j, R, hj⟩, trivial⟩
  · rw [if_neg hfar]
    simp only [ringAfter, if_neg hfar]
    have hpos : InsPos ids.length i (if i < 0 then (l.length + i).toNat else i.toNat) := by
      rw [hlen]
      rcases hleg with h | ⟨rfl, rfl⟩
      · constructor <;> split <;> omega
      · exact ⟨by simp, Or.inr (Or.inr ⟨rfl, rfl⟩)⟩
    obtain ⟨s', j', e, R', h1, h2⟩ := R.scllInsertAt hpos x
    have e' : scllClass.insertAt s i x = .ok s' := e
    rw [e']
    refine ⟨⟨_, j', R', ?_⟩, rfl⟩
    have hnil : ids = [] ↔ l = [] := by rw [← List.length_eq_zero_iff, ← List.length_eq_zero_iff, hlen]
    by_cases h0 : i = 0 ∨ l = []
    · intro _
      right
      exact h1 (h0.imp id hnil.2)
    · rw [if_neg h0]
      have := h2 (fun h => h0 (h.imp id hnil.1))
      subst this
      by_cases hm : i = -(l.length : Int)
      · rw [if_pos hm]; intro h; cases h
      · rw [if_neg hm]
        intro hc
        rcases hj hc with h | h
        · exact absurd (Or.inr (hnil.1 h)) h0
        · right
          rw [insertIdx_zero_get, h]
          have : 0 < l.length := List.length_pos_iff.2 (fun h => h0 (Or.inr h))
          have h3 : ¬ i = 0 := fun h => h0 (Or.inl h)
          rcases hleg with h | ⟨h, _⟩
          · split <;> omega
          · exact absurd (Or.inr h) h0

theorem mended_extract {closed : Bool} {s : LL κ δ} {l : List (κ × δ)} (I : RingInv closed s l) (i : Int)
    (hleg : Legal l (.extract i)) :
    RingInv (ringAfter closed l (.extract i)) (wrapNode s (do let r ← scllClass.extract s i; .ok (r.1, some r.2))).1 (specExtract l i).1 ∧
      (wrapNode s (do let r ← scllClass.extract s i; .ok (r.1, some r.2))).2 = (specExtract l i).2 := by
  obtain ⟨ids, j, R, hj⟩ := I
  have hlen := R.len
  have hsz := R.size
  simp only [Legal] at hleg
  unfold specExtract
  by_cases hnil : l = []
  · rw [if_pos hnil, scll_ok.extractNone s i (by rw [hsz, hnil]; rfl)]
    have : pyAt l.length i = none := by subst hnil; simp only [pyAt, List.length_nil]; rw [if_neg (by omega), if_neg (by omega)]
    simp only [ringAfter, if_pos this]
    exact ⟨⟨ids, j, R, hj⟩, rfl⟩
  · rw [if_neg hnil]
    have hpos : 0 < l.length := List.length_pos_iff.2 hnil
    have hleg : -(l.length : Int) ≤ i := hleg.resolve_left hnil
    cases hat : pyAt l.length i with
    | none =>
      have := pyAt_none hat hleg
      rw [scll_ok.extractFar s i (by omega) (by omega)]
      simp only [ringAfter, if_pos hat]
      exact ⟨⟨ids, j, R, hj⟩, rfl⟩
    | some k =>
      have hE := pyAt_ext hat
      have hk : k < ids.length := by rw [hlen]; exact hE.1
      have hE' : ExtPos ids.length i k := by rw [hlen]; exact hE
      obtain ⟨s', j', e, hv, R', h1, h2⟩ := R.scllExtract hE' (List.getElem?_eq_getElem hk)
      have hx : s.val ids[k] = some l[k] := by
        rw [R.vals k _ (List.getElem?_eq_getElem hk), List.getElem?_eq_getElem (by omega)]
      have hne : ¬ pyAt l.length i = none := by rw [hat]; simp
      have e' : scllClass.extract s i = .ok (s', ids[k]) := e
      rw [e']
      simp only [ok_bind, wrapNode, hv, hx, ringAfter, if_neg hne, List.getElem?_eq_getElem (show k < l.length by omega)]
      refine ⟨⟨_, j', R', ?_⟩, trivial⟩
      by_cases h0 : i = 0 ∨ l.length = 1
      · intro _
        exact h1 (h0.imp id (fun h => by omega))
      · rw [if_neg h0]
        have := h2 (fun h => h0 (h.imp id (fun h => by omega)))
        subst this
        by_cases hm : i = -(l.length : Int)
        · rw [if_pos hm]; intro h; cases h
        · rw [if_neg hm]
          intro hc
          right
          have hk0 : k ≠ 0 := by
            obtain ⟨h3, h4⟩ := hE
            have h3 : ¬ i = 0 := fun h => h0 (Or.inl h)
            omega
          rcases hj hc with h | h
          · simp [h] at hk
          · rw [List.getElem?_eraseIdx, if_pos (by omega), h]

theorem mended_step [DecidableEq κ] {closed : Bool} {s : LL κ δ} {l : List (κ × δ)} (I : RingInv closed s l) (op : LOp κ δ)
    (hleg : Legal l op) (hsafe : closed = false → StopsBeforeEnd l op) :
    RingInv (ringAfter closed l op) (llStep scllClass false s op).1 (listSpec true false l op).1 ∧
      (llStep scllClass false s op).2 = (listSpec true false l op).2 := by
  have viaRep : closed = true → LegalRing l op → ringAfter closed l op = closed →
      RingInv (ringAfter closed l op) (llStep scllClass false s op).1 (listSpec true false l op).1 ∧
      (llStep scllClass false s op).2 = (listSpec true false l op).2 := by
    intro hc hr hra
    obtain ⟨ids, j, R, hj⟩ := I
    obtain ⟨ids', R', e⟩ := sim_step scll_ok (R.toRep (hj hc)) op hr
    obtain ⟨j', R'', h⟩ := R'.toRRep
    exact ⟨⟨ids', j', R'', fun _ => h⟩, e⟩
  cases op with
  | insertAt i x => exact mended_insert I i x hleg
  | appendleft x =>
    have := mended_insert I 0 x (by simp [Legal])
    have hn : ¬ (0 : Int) > l.length := by omega
    simp only [specInsert, ringAfter, if_neg hn] at this
    simpa [listSpec, llStep, LLClass.appendleft, ringAfter] using this
  | append x =>
    have hsz : s.size = l.length := by obtain ⟨_, _, R, _⟩ := I; exact R.size
    have := mended_insert I l.length x (by simp [Legal])
    simp only [specInsert] at this
    rw [if_neg (by omega), if_neg (by omega)] at this
    have hr : ringAfter closed l (.insertAt l.length x) = ringAfter closed l (.append x) := by
      simp only [ringAfter]
      rw [if_neg (by omega)]
      by_cases h : l = []
      · rw [if_pos (Or.inr h), if_pos h]
      · have : 0 < l.length := List.length_pos_iff.2 h
        rw [if_neg (by intro h'; rcases h' with h' | h'; omega; exact h h'), if_neg h, if_neg (by omega)]
    rw [hr] at this
    simpa [listSpec, llStep, LLClass.append, hsz] using this
  | insertAfter i x =>
    cases hc : closed with
    | true => rw [← hc]; exact viaRep hc hleg rfl
    | false =>
      obtain ⟨ids, j, R, hj⟩ := I
      have hlen := R.len
      have hs := hsafe hc
      simp only [Legal] at hleg
      simp only [StopsBeforeEnd] at hs
      simp only [llStep, listSpec, ringAfter]
      cases hat : pyAt l.length i with
      | none =>
        have hi := pyAt_none hat hleg
        have : llGet s i = .error .indexError := by
          simp only [llGet]
          have hsz := R.size
          have hn : ¬ i < 0 := by omega
          simp only [if_neg hn]
          rw [if_pos (by omega)]
        rw [this]
        exact ⟨⟨ids, j, R, by intro h; cases h⟩, rfl⟩
      | some k =>
        have hE := pyAt_ext hat
        have hk : k < ids.length := by rw [hlen]; exact hE.1
        have hkl : k ≠ l.length - 1 := by intro h; exact hs (by rw [hat, h])
        obtain ⟨s', e, R'⟩ := R.scllInsertAfter (List.getElem?_eq_getElem hk) (by omega) x
        have e' : scllClass.insertAfter s ids[k] x = .ok s' := e
        rw [R.get (by rw [hlen]; exact hE), ok_bind, List.getElem?_eq_getElem hk, deref, ok_bind, e']
        exact ⟨⟨_, j, R', by intro h; cases h⟩, rfl⟩
  | insertBefore i x =>
    obtain ⟨ids, j, R, hj⟩ := I
    have hlen := R.len
    simp only [Legal] at hleg
    simp only [llStep, listSpec, ringAfter]
    cases hat : pyAt l.length i with
    | none =>
      have hi := pyAt_none hat hleg
      have : llGet s i = .error .indexError := by
        simp only [llGet]
        have hsz := R.size
        have hn : ¬ i < 0 := by omega
        simp only [if_neg hn]
        rw [if_pos (by omega)]
      rw [this]
      exact ⟨⟨ids, j, R, hj⟩, rfl⟩
    | some k =>
      have hE := pyAt_ext hat
      have hk : k < ids.length := by rw [hlen]; exact hE.1
      rw [R.get (by rw [hlen]; exact hE), ok_bind, List.getElem?_eq_getElem hk, deref, ok_bind]
      exact ⟨⟨ids, j, R, hj⟩, rfl⟩
  | extract i => exact mended_extract I i hleg
  | popleft =>
    have := mended_extract I 0 (by simp [Legal])
    simp only [llStep, listSpec, LLClass.popleft]
    cases l with
    | nil =>
      simp [specExtract, ringAfter, pyAt] at this
      refine ⟨?_, this.2⟩
      obtain ⟨⟨ids, j, R, hj⟩, _⟩ := this
      exact ⟨ids, j, R, fun _ => Or.inl (List.length_eq_zero_iff.1 R.len)⟩
    | cons x l =>
      simp [specExtract, pyAt, ringAfter] at this
      simpa [ringAfter] using this
  | popright =>
    have := mended_extract I (-1) (by
      simp only [Legal]
      by_cases h : l = []
      · exact Or.inl h
      · have := List.length_pos_iff.2 h
        exact Or.inr (by omega))
    simp only [llStep, listSpec, LLClass.popright]
    rcases List.eq_nil_or_concat l with rfl | ⟨l', x, rfl⟩
    · simpa [specExtract, ringAfter, pyAt] using this
    · rw [List.concat_eq_append] at *
      have hat : pyAt (l' ++ [x]).length (-1) = some l'.length := by
        unfold pyAt
        rw [if_neg (by omega), if_pos (by simp; omega)]
        congr 1
        simp only [List.length_append, List.length_cons, List.length_nil]
        omega
      simp only [specExtract, hat, if_neg (show ¬ l' ++ [x] = [] by simp)] at this
      have he : (l' ++ [x]).eraseIdx l'.length = l' := by
        rw [List.eraseIdx_append_of_length_le (Nat.le_refl _)]; simp
      rw [he] at this
      have hr : ringAfter closed (l' ++ [x]) (.extract (-1)) = ringAfter closed (l' ++ [x]) .popright := by
        simp only [ringAfter, hat]
        rw [if_neg (by simp)]
        by_cases h : (l' ++ [x]).length = 1
        · rw [if_pos (Or.inr h), if_pos h]
        · rw [if_neg (by intro h'; rcases h' with h' | h'; omega; exact h h'), if_neg h, if_neg (by omega)]
      rw [hr] at this
      simpa using this
  | get i =>
    obtain ⟨ids, j, R, hj⟩ := I
    have hlen := R.len
    simp only [Legal] at hleg
    simp only [llStep, listSpec, ringAfter]
    cases hat : pyAt l.length i with
    | none =>
      have hi := pyAt_none hat hleg
      have : llGet s i = .error .indexError := by
        simp only [llGet]
        have hsz := R.size
        have hn : ¬ i < 0 := by omega
        simp only [if_neg hn]
        rw [if_pos (by omega)]
      rw [this]
      exact ⟨⟨ids, j, R, hj⟩, rfl⟩
    | some k =>
      have hE := pyAt_ext hat
      have hk : k < ids.length := by rw [hlen]; exact hE.1
      have hx : s.val ids[k] = some l[k] := by
        rw [R.vals k _ (List.getElem?_eq_getElem hk), List.getElem?_eq_getElem (by omega)]
      rw [R.get (by rw [hlen]; exact hE), ok_bind, List.getElem?_eq_getElem hk]
      refine ⟨⟨ids, j, R, hj⟩, ?_⟩
      simp only [wrapNode, hx, List.getElem?_eq_getElem (show k < l.length by omega)]
  | search key =>
    cases hc : closed with
    | true => rw [← hc]; exact viaRep hc hleg rfl
    | false =>
      obtain ⟨x, hx, hxk⟩ := hsafe hc
      obtain ⟨ids, j, R, hj⟩ := I
      obtain ⟨y, hy⟩ : ∃ y, l.find? (fun x => x.1 = key) = some y :=
        Option.isSome_iff_exists.1 (List.find?_isSome.2 ⟨x, hx, by simpa using hxk⟩)
      obtain ⟨i, e, hv⟩ := R.llSearch key hy
      simp only [llStep, listSpec, ringAfter, e, ok_bind, hy]
      refine ⟨⟨ids, j, R, by intro h; cases h⟩, ?_⟩
      simp only [wrapNode, hv]
  | str =>
    cases hc : closed with
    | true => rw [← hc]; exact viaRep hc hleg rfl
    | false => exact (hsafe hc).elim
  | ends =>
    by_cases hc : closed = true
    · exact viaRep hc hleg rfl
    · exact (hsafe (by simpa using hc)).elim
  | len =>
    have hsz : s.size = l.length := by obtain ⟨_, _, R, _⟩ := I; exact R.size
    simp only [llStep, listSpec, hsz, ringAfter]
    exact ⟨I, trivial⟩
  | isEmpty =>
    have hsz : s.size = l.length := by obtain ⟨_, _, R, _⟩ := I; exact R.size
    simp only [llStep, listSpec, hsz, ringAfter]
    exact ⟨I, by cases l <;> simp⟩
  | backward => exact ⟨I, rfl⟩

theorem mended_run [DecidableEq κ] : ∀ (ops : List (LOp κ δ)) (closed : Bool) (s : LL κ δ) (l : List (κ × δ)),
    RingInv closed s l → AlongRing closed l ops → trace (llStep scllClass false) s ops = trace (listSpec true false) l ops := by
  intro ops
  induction ops with
  | nil => intros; rfl
  | cons op ops ih =>
    intro closed s l I ⟨h1, h2, h3⟩
    obtain ⟨I', e⟩ := mended_step I op h1 h2
    simp only [trace, e, ih _ _ _ I' h3]

/-- C41, all documented indices: through every history of calls, a singly circular list answers as a plain list, provided that the calls
which look at the link of the last node are made while the ring is closed. Index `-len` opens the ring; index `0` closes it. -/
theorem C41_all_indices_partial [DecidableEq κ] (ops : List (LOp κ δ)) (h : AlongRing true [] ops) :
    trace (llStep scllClass false) LL.new ops = trace (listSpec true false) [] ops :=
  mended_run ops true _ [] ⟨[], 0, ⟨rfl, by simp, by simp, by simp, by simp, by simp, rfl, rfl, rfl, by simp, by simp⟩, fun _ => Or.inl rfl⟩ h

/-- The histories of `C41_circular_list_partial` are among those of `C41_all_indices_partial`. -/
theorem legalRing_along [DecidableEq κ] : ∀ (ops : List (LOp κ δ)) (l : List (κ × δ)), Along true false LegalRing l ops → AlongRing true l ops := by
  intro ops
  induction ops with
  | nil => intros; trivial
  | cons op ops ih =>
    intro l ⟨h1, h2⟩
    refine ⟨LegalRing.legal l op h1, (by intro h; cases h), ?_⟩
    have : ringAfter true l op = true := by
      cases op with
      | insertAt i x =>
        simp only [ringAfter]
        simp only [LegalRing] at h1
        split
        · rfl
        · split
          · rfl
          · rename_i h3
            rw [if_neg]
            rcases h1 with h | ⟨h, _⟩ | ⟨h, _⟩
            · omega
            · exact absurd (Or.inr h) h3
            · exact absurd (Or.inr h) h3
      | extract i =>
        simp only [ringAfter]
        simp only [LegalRing] at h1
        split
        · rfl
        · rename_i hn
          split
          · rfl
          · rename_i h3
            rw [if_neg]
            rcases h1 with h | h | ⟨h, _⟩
            · subst h
              exact absurd (by simp only [pyAt, List.length_nil]; rw [if_neg (by omega), if_neg (by omega)]) hn
            · omega
            · exact absurd (Or.inr h) h3
      | append x => simp [ringAfter]
      | popright => simp [ringAfter]
      | _ => rfl
    rw [this]
    exact ih _ h2

/-! Index `-len` opens the ring, `appendleft` closes it, then the walk and the search for a missing key are right again. -/

example : AlongRing true []
    ([.append (1, 10), .append (2, 20), .insertAt (-2) (0, 0), .search 2, .append (3, 30), .extract (-4), .get (-1), .insertAfter 0 (7, 70), .popright,
      .appendleft (8, 80), .search 9, .str, .ends] : List (LOp Nat Nat)) := by
  simp [AlongRing, Legal, listSpec, specInsert, specExtract, pyAt, ringAfter, StopsBeforeEnd]

example : trace (llStep scllClass false) LL.new
    ([.append (1, 10), .append (2, 20), .insertAt (-2) (0, 0), .search 2, .append (3, 30), .extract (-4), .get (-1), .insertAfter 0 (7, 70), .popright,
      .appendleft (8, 80), .search 9, .str, .ends] : List (LOp Nat Nat)) =
    [.done, .done, .done, .node (2, 20), .done, .node (0, 0), .node (3, 30), .done, .node (3, 30), .done, .nothing,
      .items [(8, 80), (1, 10), (7, 70), (2, 20)], .two (some (8, 80)) none] := by decide

/-- The restriction to calls that stop before the end is needed while the ring is open: `insert_after` the last node leaves `tail` behind,
so that the node appended next takes its place. -/
theorem C41_open_insert_after : trace (llStep scllClass false) LL.new
      [.append (1, ()), .append (2, ()), .insertAt (-2) (0, ()), .insertAfter 2 (3, ()), .append (4, ()), .get 3] =
    [.done, .done, .done, .done, .done, (.node (4, ()) : LOut Nat Unit)] := by decide

end Props
