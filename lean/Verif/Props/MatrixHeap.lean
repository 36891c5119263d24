import Verif.Lemmas.MatrixHeap
import Verif.Props.Matrix

/-!
# C49: matrices on a heap; the functions of `Model/Matrix.lean` describe them
-/

namespace Verif.Props
open Spec Expr

theorem makes_refines {h : Heap} {c : HM HMat} {spec : PyM Mat} (hm : HMat.Makes h spec (c h)) :
    Refines h c viewMat spec := by
  obtain ⟨h1, h2⟩ := hm
  refine ⟨h1.prefix, ?_⟩
  cases spec with
  | error e => exact h2
  | ok M =>
    obtain ⟨m, h3, h4, _⟩ := h2
    exact ⟨m, h3, h4⟩

/-- **C49, the constructor.** On the heap, `Matrix(entries)` does what `Mat.new` says of the lists
that `entries` stands for, and changes no existing object. -/
theorem C49_new (h : Heap) (c : Cell) :
    Refines h (HMat.new c) viewMat (Mat.new (viewEntries h c)) :=
  makes_refines (HMat.new_makes c h)

/-- The heap with `rows = [[x, 0], [0, 2]]`: the rows at 0 and 1, the outer list at 2. -/
def sampleHeap : Heap :=
  [.list [.obj (.expr x), .obj (.int 0)], .list [.obj (.int 0), .obj (.int 2)],
   .list [.ref 0, .ref 1]]

/-- The matrix object that `Matrix(rows)` makes in `sampleHeap`. -/
def sampleHMat : HMat := ⟨2, 2, 5, listH.call [x, integer 2], 4⟩

example : viewEntries sampleHeap (.ref 2) =
      .list [.list [.expr x, .int 0], .list [.int 0, .int 2]] ∧
    HMat.new (.ref 2) sampleHeap = (.ok sampleHMat, sampleHeap ++
      [.list [.obj (.expr x), .obj (.expr (integer 2))], .dict ⟨[((0, 0), 0), ((1, 1), 1)]⟩,
       .list [.obj (.expr x), .obj (.expr (integer 2))]]) := by
  decide +kernel

/-- **C49, `binop` and addition.** -/
theorem C49_binop (h : Heap) (a b : HMat) (A B : Mat) (f : Expr) (ha : viewMat h a = some A)
    (hb : viewMat h b = some B) : Refines h (a.binop b f) viewMat (A.binop B f) :=
  makes_refines (HMat.binop_makes a b f h A B ha hb)

/-- **C49, `diff`.** -/
theorem C49_diff (h : Heap) (a : HMat) (A : Mat) (sym : PyObj) (p : DiffProps Val)
    (ha : viewMat h a = some A) : Refines h (a.diff sym p) viewMat (A.diff sym p) :=
  makes_refines (HMat.diff_makes a sym p h A ha)

/-- **C49, indexing.** `M[i, j]` does not touch the heap at all. -/
theorem C49_getitem (h : Heap) (m : HMat) (M : Mat) (ij : PyIndex) (hm : viewMat h m = some M) :
    m.getItem ij h = (M.getItem ij, h) :=
  HMat.getItem_run m ij h M hm

/-- **C49, `tolist`.** The lists it returns are new. -/
theorem C49_tolist (h : Heap) (m : HMat) (M : Mat) (hm : viewMat h m = some M) :
    Refines h m.tolist viewRows M.tolist ∧
    ∀ r, (m.tolist h).1 = .ok r → h.length ≤ r := by
  obtain ⟨h1, h2⟩ := HMat.tolist_run m h M hm
  cases hs : M.tolist with
  | error e =>
    rw [hs] at h2
    exact ⟨⟨h1.prefix, h2⟩, fun r hr => by rw [h2] at hr; cases hr⟩
  | ok g =>
    rw [hs] at h2
    obtain ⟨r, h3, h4, h5, _⟩ := h2
    exact ⟨⟨h1.prefix, r, h3, h4⟩, fun r' hr => by rw [h3] at hr; cases hr; exact h5⟩

/-- In the heap after `M = Matrix(rows)`: `M + M`, `M.diff(x)`, `M[1, 1]` and `M.tolist()`. -/
example : let h := (HMat.new (.ref 2) sampleHeap).2
    viewMat h sampleHMat = some (Mat.mk' 2 2 [x, integer 2] ⟨[((0, 0), 0), ((1, 1), 1)]⟩) ∧
    (sampleHMat.binop sampleHMat addH h).1.isOk = true ∧
    (sampleHMat.diff (.expr x) builtinDiff h).1.isOk = true ∧
    (sampleHMat.getItem (.pair 1 1) h).1 = .ok (integer 2) ∧
    (sampleHMat.tolist h).1 = .ok 8 ∧
    viewRows (sampleHMat.tolist h).2 8 = some [[x, zero], [zero, integer 2]] := by
  decide +kernel

/-! ### Immutability -/

/-- What holds between the steps of a program. -/
structure HInv (s : HState) : Prop where
  mats : ∀ m ∈ s.mats, ∃ M, viewMat s.heap m = some M ∧ MatHistory M
  user : ∀ r ∈ s.user, r < s.heap.length ∧ ∀ m ∈ s.mats, m.elements ≠ r
  cells : ∀ (r : Nat) (l : List Cell), s.heap[r]? = some (.list l) → ∀ r', Cell.ref r' ∈ l →
    r' < s.heap.length ∧ ∀ m ∈ s.mats, m.elements ≠ r'

theorem HInv.elements_lt {s : HState} (hi : HInv s) {m : HMat} (hm : m ∈ s.mats) :
    m.elements < s.heap.length := by
  obtain ⟨M, h1, _⟩ := hi.mats m hm
  exact (List.getElem?_eq_some_iff.1 (viewList_iff.1 (viewMat_iff.1 h1).1)).1

theorem HInv.grows {s : HState} (hi : HInv s) {b : Bool} {h : Heap}
    (hg : HMat.Grows b s.heap h) : HInv { s with heap := h } := by
  have hp := hg.prefix
  have hlen := hp.length_le
  obtain ⟨t, rfl, ht⟩ := hg
  refine ⟨?_, ?_, ?_⟩
  · intro m hm
    obtain ⟨M, h1, h2⟩ := hi.mats m hm
    exact ⟨M, viewMat_prefix hp h1, h2⟩
  · intro r hr
    exact ⟨Nat.lt_of_lt_of_le (hi.user r hr).1 hlen, (hi.user r hr).2⟩
  · intro r l hr r' hr'
    dsimp only at hr
    by_cases hlt : r < s.heap.length
    · rw [List.getElem?_append_left hlt] at hr
      obtain ⟨h1, h2⟩ := hi.cells r l hr r' hr'
      exact ⟨Nat.lt_of_lt_of_le h1 hlen, h2⟩
    · rw [List.getElem?_append_right (by omega)] at hr
      obtain ⟨_, h1, h2⟩ := ht l (List.mem_of_getElem? hr) r' hr'
      refine ⟨h2, fun m hm => ?_⟩
      have := hi.elements_lt hm
      omega

theorem HInv.addMat {s : HState} (hi : HInv s) {h : Heap} {spec : PyM Mat} {m : HMat}
    (hm : HMat.Makes s.heap spec (.ok m, h)) (hh : ∀ M, spec = .ok M → MatHistory M) :
    HInv { s with heap := h, mats := m :: s.mats } := by
  obtain ⟨hg, h2⟩ := hm
  have hi' := hi.grows hg
  cases hs : spec with
  | error e => rw [hs] at h2; cases h2
  | ok M =>
    rw [hs] at h2
    obtain ⟨m', h3, h4, h5⟩ := h2
    obtain rfl := Except.ok.inj h3
    refine ⟨?_, ?_, ?_⟩
    · intro a ha
      rcases List.mem_cons.1 ha with rfl | ha
      · exact ⟨M, h4, hh M hs⟩
      · exact hi'.mats a ha
    · intro r hr
      refine ⟨(hi'.user r hr).1, fun a ha => ?_⟩
      rcases List.mem_cons.1 ha with rfl | ha
      · have := (hi.user r hr).1
        omega
      · exact (hi'.user r hr).2 a ha
    · intro r l hr r' hr'
      refine ⟨(hi'.cells r l hr r' hr').1, fun a ha => ?_⟩
      rcases List.mem_cons.1 ha with rfl | ha
      · obtain ⟨t, rfl, ht⟩ := hg
        dsimp only at hr
        by_cases hlt : r < s.heap.length
        · rw [List.getElem?_append_left hlt] at hr
          have := (hi.cells r l hr r' hr').1
          omega
        · rw [List.getElem?_append_right (by omega)] at hr
          exact absurd (ht l (List.mem_of_getElem? hr) r' hr').1 (by decide)
      · exact (hi'.cells r l hr r' hr').2 a ha

theorem HInv.knows {s : HState} (hi : HInv s) {c : Cell} (hc : s.Knows c) {r : Nat}
    (hr : c = .ref r) : r < s.heap.length ∧ ∀ m ∈ s.mats, m.elements ≠ r :=
  hi.user r (hc r hr)

/-- One step keeps the invariant, the matrices, and what they stand for. -/
theorem hstep_inv {s t : HState} (hi : HInv s) (hst : HStep s t) :
    HInv t ∧ ∀ m ∈ s.mats, m ∈ t.mats ∧ viewMat t.heap m = viewMat s.heap m := by
  have keep : ∀ {h : Heap}, s.heap <+: h → ∀ m ∈ s.mats, viewMat h m = viewMat s.heap m := by
    intro h hp m hm
    obtain ⟨M, h1, _⟩ := hi.mats m hm
    rw [h1, viewMat_prefix hp h1]
  cases hst with
  | list l hl =>
    refine ⟨⟨?_, ?_, ?_⟩, fun m hm => ⟨hm, keep (List.prefix_append _ _) m hm⟩⟩
    · intro m hm
      obtain ⟨M, h1, h2⟩ := hi.mats m hm
      exact ⟨M, viewMat_prefix (List.prefix_append _ _) h1, h2⟩
    · intro r hr
      rcases List.mem_cons.1 hr with rfl | hr
      · refine ⟨by simp, fun m hm => ?_⟩
        have := hi.elements_lt hm
        omega
      · obtain ⟨h1, h2⟩ := hi.user r hr
        exact ⟨by simp; omega, h2⟩
    · intro r l' hr r' hr'
      dsimp only at hr
      by_cases hlt : r < s.heap.length
      · rw [List.getElem?_append_left hlt] at hr
        obtain ⟨h1, h2⟩ := hi.cells r l' hr r' hr'
        exact ⟨by simp; omega, h2⟩
      · rw [List.getElem?_append_right (by omega)] at hr
        have := List.mem_of_getElem? hr
        simp only [List.mem_singleton, HObj.list.injEq] at this
        subst this
        obtain ⟨h1, h2⟩ := hi.knows (hl _ hr') rfl
        exact ⟨by simp; omega, h2⟩
  | write r l old hr hold hl =>
    have hne : ∀ m ∈ s.mats, m.elements ≠ r := (hi.user r hr).2
    have hv : ∀ m ∈ s.mats, viewMat (s.heap.set r (.list l)) m = viewMat s.heap m := by
      intro m hm
      obtain ⟨M, h1, _⟩ := hi.mats m hm
      rw [h1]
      obtain ⟨h2, h3, h4⟩ := viewMat_iff.1 h1
      refine viewMat_iff.2 ⟨viewList_iff.2 ?_, viewDict_iff.2 ?_, h4⟩
      · rw [List.getElem?_set_ne (fun h => hne m hm h.symm)]
        exact viewList_iff.1 h2
      · have h3 := viewDict_iff.1 h3
        rw [List.getElem?_set_ne]
        · exact h3
        · intro h
          rw [← h, hold] at h3
          cases h3
    refine ⟨⟨?_, ?_, ?_⟩, fun m hm => ⟨hm, hv m hm⟩⟩
    · intro m hm
      obtain ⟨M, h1, h2⟩ := hi.mats m hm
      exact ⟨M, by rw [← h1]; exact hv m hm, h2⟩
    · intro r' hr'
      obtain ⟨h1, h2⟩ := hi.user r' hr'
      exact ⟨by simpa using h1, h2⟩
    · intro q l' hq r' hr'
      dsimp only at hq
      by_cases hqr : q = r
      · subst hqr
        rw [List.getElem?_set_self (hi.user q hr).1] at hq
        obtain rfl := HObj.list.inj (Option.some.inj hq)
        obtain ⟨h1, h2⟩ := hi.knows (hl _ hr') rfl
        exact ⟨by simpa using h1, h2⟩
      · rw [List.getElem?_set_ne (fun h => hqr h.symm)] at hq
        obtain ⟨h1, h2⟩ := hi.cells q l' hq r' hr'
        exact ⟨by simpa using h1, h2⟩
  | read r r' l hr hl hr' =>
    refine ⟨⟨hi.mats, ?_, hi.cells⟩, fun m hm => ⟨hm, rfl⟩⟩
    intro q hq
    rcases List.mem_cons.1 hq with rfl | hq
    · exact hi.cells r l hl q hr'
    · exact hi.user q hq
  | new c m h _ hrun =>
    have hm := HMat.new_makes c s.heap
    rw [hrun] at hm
    exact ⟨hi.addMat hm (fun M hM => .new hM),
      fun a ha => ⟨List.mem_cons_of_mem _ ha, keep hm.1.prefix a ha⟩⟩
  | newRaises c e h _ hrun =>
    have hm := HMat.new_makes c s.heap
    rw [hrun] at hm
    exact ⟨hi.grows hm.1, fun a ha => ⟨ha, keep hm.1.prefix a ha⟩⟩
  | binop a b m f h ha hb hrun =>
    obtain ⟨A, hA, hA'⟩ := hi.mats a ha
    obtain ⟨B, hB, hB'⟩ := hi.mats b hb
    have hm := HMat.binop_makes a b f s.heap A B hA hB
    rw [hrun] at hm
    exact ⟨hi.addMat hm (fun M hM => .binop hA' hB' hM),
      fun a ha => ⟨List.mem_cons_of_mem _ ha, keep hm.1.prefix a ha⟩⟩
  | binopRaises a b f e h ha hb hrun =>
    obtain ⟨A, hA, hA'⟩ := hi.mats a ha
    obtain ⟨B, hB, hB'⟩ := hi.mats b hb
    have hm := HMat.binop_makes a b f s.heap A B hA hB
    rw [hrun] at hm
    exact ⟨hi.grows hm.1, fun a ha => ⟨ha, keep hm.1.prefix a ha⟩⟩
  | diff a m sym p h ha hp hrun =>
    obtain ⟨A, hA, hA'⟩ := hi.mats a ha
    have hm := HMat.diff_makes a sym p s.heap A hA
    rw [hrun] at hm
    exact ⟨hi.addMat hm (fun M hM => .diff hA' hp hM),
      fun a ha => ⟨List.mem_cons_of_mem _ ha, keep hm.1.prefix a ha⟩⟩
  | diffRaises a sym p e h ha hrun =>
    obtain ⟨A, hA, hA'⟩ := hi.mats a ha
    have hm := HMat.diff_makes a sym p s.heap A hA
    rw [hrun] at hm
    exact ⟨hi.grows hm.1, fun a ha => ⟨ha, keep hm.1.prefix a ha⟩⟩
  | tolist a r h ha hrun =>
    obtain ⟨A, hA, hA'⟩ := hi.mats a ha
    obtain ⟨hg, h2⟩ := HMat.tolist_run a s.heap A hA
    rw [hrun] at hg h2
    have hi' := hi.grows hg
    refine ⟨⟨hi'.mats, ?_, hi'.cells⟩, fun a ha => ⟨ha, keep hg.prefix a ha⟩⟩
    intro q hq
    rcases List.mem_cons.1 hq with rfl | hq
    · cases hs : A.tolist with
      | error e => rw [hs] at h2; cases h2
      | ok g =>
        rw [hs] at h2
        obtain ⟨r', h3, _, h4, h5⟩ := h2
        obtain rfl := Except.ok.inj h3
        refine ⟨h5, fun m hm => ?_⟩
        have := hi.elements_lt hm
        omega
    · exact hi'.user q hq
  | tolistRaises a e h ha hrun =>
    obtain ⟨A, hA, hA'⟩ := hi.mats a ha
    obtain ⟨hg, h2⟩ := HMat.tolist_run a s.heap A hA
    rw [hrun] at hg
    exact ⟨hi.grows hg, fun a ha => ⟨ha, keep hg.prefix a ha⟩⟩

theorem hrun_inv {s t : HState} (hi : HInv s) (h : HRun s t) :
    HInv t ∧ ∀ m ∈ s.mats, m ∈ t.mats ∧ viewMat t.heap m = viewMat s.heap m := by
  induction h with
  | refl => exact ⟨hi, fun m hm => ⟨hm, rfl⟩⟩
  | step _ hst ih =>
    obtain ⟨h1, h2⟩ := ih
    obtain ⟨h3, h4⟩ := hstep_inv h1 hst
    exact ⟨h3, fun m hm => ⟨(h4 m (h2 m hm).1).1, (h4 m (h2 m hm).1).2.trans (h2 m hm).2⟩⟩

theorem hinv_start : HInv HState.start := ⟨by simp [HState.start], by simp [HState.start],
  by simp [HState.start]⟩

/-- **C49, immutability.** Let a program reach the state `s` and then go on to the state `s'`:
it may change, in any way, the lists it made or got from `tolist`, and call any operation, also
ones that fail.  A matrix that exists in `s` is in `s'` the same: indexing and `tolist` give the
same results, and it stands for the same value.  That value is a matrix in the sense of
`MatHistory`, so C29 to C33 hold of it. -/
theorem C49_immutable (s s' : HState) (h1 : HRun HState.start s) (h2 : HRun s s') (m : HMat)
    (hm : m ∈ s.mats) :
    (∃ M, viewMat s.heap m = some M ∧ viewMat s'.heap m = some M ∧ MatHistory M) ∧
    (∀ ij, (m.getItem ij s'.heap).1 = (m.getItem ij s.heap).1) ∧
    (∃ r r' g, (m.tolist s.heap).1 = .ok r ∧ (m.tolist s'.heap).1 = .ok r' ∧
      viewRows (m.tolist s.heap).2 r = some g ∧ viewRows (m.tolist s'.heap).2 r' = some g) := by
  have hi := (hrun_inv hinv_start h1).1
  obtain ⟨M, hM, hH⟩ := hi.mats m hm
  have hM' := (hrun_inv hi h2).2 m hm |>.2.trans hM
  refine ⟨⟨M, hM, hM', hH⟩, ?_, ?_⟩
  · intro ij
    rw [C49_getitem _ m M ij hM, C49_getitem _ m M ij hM']
  · obtain ⟨g, hg, _⟩ := C30_tolist M hH
    obtain ⟨⟨_, h3⟩, _⟩ := C49_tolist s.heap m M hM
    obtain ⟨⟨_, h4⟩, _⟩ := C49_tolist s'.heap m M hM'
    rw [hg] at h3 h4
    obtain ⟨r, h5, h6⟩ := h3
    obtain ⟨r', h7, h8⟩ := h4
    exact ⟨r, r', g, h5, h7, h6, h8⟩

/-- `rows = [[x, 0], [0, 2]]; M = Matrix(rows); rows[0][:] = [y, y]`: a program that changes a
list it gave to the constructor. -/
example : ∃ s s', HRun HState.start s ∧ HRun s s' ∧ sampleHMat ∈ s.mats ∧
    s'.heap[0]? ≠ s.heap[0]? ∧
    (sampleHMat.getItem (.pair 0 0) s'.heap).1 = .ok x := by
  let s1 : HState := ⟨[.list [.obj (.expr x), .obj (.int 0)]], [], [0]⟩
  let s2 : HState := ⟨s1.heap ++ [.list [.obj (.int 0), .obj (.int 2)]], [], [1, 0]⟩
  let s3 : HState := ⟨sampleHeap, [], [2, 1, 0]⟩
  let s4 : HState := ⟨(HMat.new (.ref 2) sampleHeap).2, [sampleHMat], [2, 1, 0]⟩
  let s5 : HState := ⟨s4.heap.set 0 (.list [.obj (.expr y), .obj (.expr y)]), [sampleHMat], [2, 1, 0]⟩
  have k : ∀ (s : HState) (o : PyObj), s.Knows (.obj o) := fun s o r hr => by cases hr
  have r1 : HStep HState.start s1 := .list _ _ (by
    intro c hc
    simp only [List.mem_cons, List.not_mem_nil, or_false] at hc
    rcases hc with rfl | rfl <;> exact k _ _)
  have r2 : HStep s1 s2 := .list _ _ (by
    intro c hc
    simp only [List.mem_cons, List.not_mem_nil, or_false] at hc
    rcases hc with rfl | rfl <;> exact k _ _)
  have r3 : HStep s2 s3 := .list _ [.ref 0, .ref 1] (by
    intro c hc r hr
    subst hr
    simp only [List.mem_cons, Cell.ref.injEq, List.not_mem_nil, or_false] at hc
    rcases hc with rfl | rfl <;> simp [s2])
  have r4 : HStep s3 s4 := .new s3 (.ref 2) sampleHMat _ (by
    intro r hr
    cases hr
    simp [s3]) (by decide +kernel)
  have r5 : HStep s4 s5 := .write s4 0 _ [.obj (.expr x), .obj (.int 0)] (by simp [s4])
    (by decide +kernel) (by
      intro c hc
      simp only [List.mem_cons, List.not_mem_nil, or_false] at hc
      rcases hc with rfl | rfl <;> exact k _ _)
  exact ⟨s4, s5, .step (.step (.step (.step .refl r1) r2) r3) r4, .step .refl r5, by simp [s4],
    by decide +kernel, by decide +kernel⟩

/-- **C49, what is shared.** A derivative has the same dict `entrymap` as the matrix (not a copy)
and its own list of elements; a sum shares nothing with its operands.  The constructor and the
operations never write to a shared dict, but a program that assigns to `M.entrymap[i, j]` itself
changes `M.diff(x)` too. -/
theorem C49_sharing (h : Heap) (a b : HMat) (A B : Mat) (ha : viewMat h a = some A)
    (hb : viewMat h b = some B) :
    (∀ sym p d h', a.diff sym p h = (.ok d, h') → d.entrymap = a.entrymap ∧
      h.length ≤ d.elements) ∧
    (∀ f c h', a.binop b f h = (.ok c, h') → h.length ≤ c.entrymap ∧ h.length ≤ c.elements) := by
  constructor
  · intro sym p d h' hd
    have hm := HMat.diff_makes a sym p h A ha
    rw [hd] at hm
    refine ⟨?_, ?_⟩
    · unfold HMat.diff at hd
      cases sym with
      | int n => cases hd
      | other n => cases hd
      | expr x =>
        simp only at hd
        cases he : Expr.diff a.elementsGraph x 1 p with
        | error err =>
          rw [he, HM.bind_error (HM.lift_run (.error err) h)] at hd
          cases hd
        | ok ed =>
          rw [he, HM.bind_ok (HM.lift_run (.ok ed) h), HM.bind_ok (HM.alloc_run _ _)] at hd
          have e1 : (h ++ [HObj.list (exprCells (ed.children.drop 1))])[h.length]? =
            some (.list (exprCells (ed.children.drop 1))) := by simp
          have h2 := HMat.mk'_run (nrows := a.nrows) (ncols := a.ncols) (entrymap := a.entrymap) e1
          change HMat.mk' a.nrows a.ncols h.length a.entrymap
            (h ++ [HObj.list (exprCells (ed.children.drop 1))]) = _ at hd
          rw [h2] at hd
          cases hd
          rfl
    · obtain ⟨_, h2⟩ := hm
      cases hs : A.diff sym p with
      | error e => rw [hs] at h2; cases h2
      | ok M =>
        rw [hs] at h2
        obtain ⟨m, h3, _, h5⟩ := h2
        obtain rfl := Except.ok.inj h3
        exact h5
  · intro f c h' hc
    exact HMat.binop_fresh a b f h A B ha hb c h' hc

/-- `D = M.diff(x)` and then `M.entrymap[0, 1] = 0`: `D[0, 1]` changes from 0 to 1. -/
example : let h := (HMat.new (.ref 2) sampleHeap).2
    ∃ d h', sampleHMat.diff (.expr x) builtinDiff h = (.ok d, h') ∧
      (d.getItem (.pair 0 1) h').1 = .ok zero ∧
      (d.getItem (.pair 0 1) (HM.setKey sampleHMat.entrymap (0, 1) 0 h').2).1 = .ok (integer 1) := by
  refine ⟨⟨2, 2, 7, listH.call [integer 1, zero], 4⟩, _, Prod.ext ?_ rfl, ?_, ?_⟩ <;>
    decide +kernel

end Verif.Props
