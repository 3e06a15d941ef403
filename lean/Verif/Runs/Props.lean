import Verif.Runs.Step
import Verif.Descent.Props
/-!
# Property C113: training runs on shared storages

`fit` with tensors that share storages does what it does with tensors by value, and leaves the tensors of its caller alone.
-/
namespace Verif.Runs
open Verif Res View Tensor Data Graph Optim Fit Train Descent
open Verif.Alias (denote_some denote_congr readT readT_ok)

noncomputable section

variable {κ O : Type} {U I X : List Nat}

/-- The same program with tensors by value. -/
def Prog.byValue (M : Prog κ O) : Machine (κ × O × OSt) ℝ := compiledWith M.loss (fun q st => M.adv q st.leaf st.data) M.inp M.gt (M.opt.step M.eps)

/-- The loss does not suffer from sharing, with what is bound to the place holders; it keeps the inputs; and what its operators hold after a pass depends on the
inputs and the variables. -/
structure Ready (M : Prog κ O) (U I : List Nat) (s : κ × O × OSt) : Prop where
  fine : Fine M.fk U I [M.inp, M.gt] (M.loss s.1)
  sound : Train.Sound M.fk s.2.2.st.leaf s.2.2.st.data (M.loss s.1)
  keeps : M.inp ∉ killed M.fk (M.loss s.1)
  adv : ∀ L L' D D', L M.inp = L' M.inp → (∀ v ∈ U, D v = D' v) → M.adv s.1 L D = M.adv s.1 L' D'
  reg : ∀ p ∈ s.2.2.reg, p.1 ∈ U

/-- One batch. -/
theorem loss_sim {M : Prog κ O} {q : κ} {o : O} {s : HO} {os : OSt} (h : Rel U I [M.inp, M.gt] X s os) (hr : Ready M U I (q, o, os))
    (hx : denote s.t.heap (s.t.leafT M.inp) = some (os.st.leaf M.inp)) (hy : denote s.t.heap (s.t.leafT M.gt) = some (os.st.leaf M.gt)) {y : Ten ℝ} {s1 : κ × O × OSt}
    (hl : M.byValue.loss (q, o, os) = ok (y, s1)) :
    ∃ x h1, M.hrunLoss (q, o, s) = ok (x, (q, o, h1)) ∧ s1.1 = q ∧ s1.2.1 = o ∧ denote h1.t.heap x = some y ∧ Rel U I [M.inp, M.gt] X h1 s1.2.2 ∧ Stays [M.inp, M.gt] X s h1 ∧
      (∀ k ∈ [M.inp, M.gt], k ∉ killed M.fk (M.loss q) → h1.t.heap[(s.t.leafT k).loc]? = s.t.heap[(s.t.leafT k).loc]?) ∧ ∀ s2, M.byValue.step s1 = ok s2 → ∃ h2, M.hrunOpt (q, o, h1) = ok (s2.1, s2.2.1, h2) ∧ Rel U I [M.inp, M.gt] X h2 s2.2.2 ∧ Stays [M.inp, M.gt] X s h2 ∧
        ((∀ v, endOf M.fk (M.loss q) ≠ .var v) → denote h2.t.heap x = some y) ∧
        ∀ k ∈ [M.inp, M.gt], h2.t.heap[(s.t.leafT k).loc]? = h1.t.heap[(s.t.leafT k).loc]? := by
  have hl : (run (M.loss q) os.st >>= fun r => pure (r.1, (q, o, { os with st := r.2 }))) = ok (y, s1) := hl
  obtain ⟨⟨y', st1⟩, h1, h2⟩ := bind_eq_ok.mp hl
  simp only [pure_eq, ok.injEq, Prod.mk.injEq] at h2
  obtain ⟨rfl, rfl⟩ := h2
  obtain ⟨x, t1, k1, k2, k3, k4, k5, k6⟩ := batch_sim M.opt M.eps M.bk h hr.fine hr.sound (fun k hk => by
    have := hr.fine.leaves k hk
    simp only [List.mem_cons, List.not_mem_nil, or_false] at this
    rcases this with rfl | rfl
    · exact hx
    · exact hy) hr.reg h1
  refine ⟨x, { s with t := t1 }, ?_, rfl, rfl, k2, k3, k4, k5, fun s2 hs2 => ?_⟩
  · unfold Prog.hrunLoss
    dsimp only
    rw [k1]; rfl
  · have hs2 : (M.adv q st1.leaf st1.data >>= fun q' => M.opt.step M.eps (M.loss q) o { os with st := st1 } >>= fun r => pure (q', r.1, r.2)) = ok s2 := hs2
    obtain ⟨q', a1, hs2⟩ := bind_eq_ok.mp hs2
    obtain ⟨⟨o', os2⟩, a2, hs2⟩ := bind_eq_ok.mp hs2
    simp only [pure_eq, ok.injEq] at hs2
    subst hs2
    obtain ⟨h2, b1, b2, b3, b4, b5⟩ := k6 o o' os2 a2
    refine ⟨h2, ?_, b2, b3, b4, b5⟩
    unfold Prog.hrunOpt
    dsimp only
    have hin : leafView { s with t := t1 } M.inp = st1.leaf M.inp := by
      have e1 : t1.heap[(s.t.leafT M.inp).loc]? = s.t.heap[(s.t.leafT M.inp).loc]? := k5 M.inp (by simp) hr.keeps
      have e2 : t1.leafT = s.t.leafT := k4.leafT
      unfold leafView
      dsimp only
      rw [e2, denote_congr e1, hx, (run_keeps h1).1]
      rfl
    rw [hr.adv (leafView { s with t := t1 }) st1.leaf (dataView { s with t := t1 }) st1.data hin (fun v hv => by
      unfold dataView
      rw [k3.var v hv]; rfl), a1, bind_ok, b1]
    rfl

/-- Storages of place holders may be written. -/
theorem Rel.feed {P : List Nat} {s : HO} {os : OSt} (h : Rel U I P X s os) {heap : Heap ℝ} {leaf : Nat → Ten ℝ} (hlen : heap.length = s.t.heap.length)
    (hh : ∀ q, (∀ k ∈ P, q ≠ (s.t.leafT k).loc) → heap[q]? = s.t.heap[q]?) :
    Rel U I P X { s with t := { s.t with heap := heap } } { os with st := { os.st with leaf := leaf } } := by
  have hloc : ∀ l, HO.loc { s with t := { s.t with heap := heap } } l = s.loc l := fun l => by
    cases l with
    | tag τ => cases τ <;> rfl
    | ctx v j => rfl
  have hpart : ∀ l, Part U I P { s with t := { s.t with heap := heap } } l ↔ Part U I P s l := fun l => by
    cases l with
    | tag τ => cases τ <;> exact Iff.rfl
    | ctx v j => exact Iff.rfl
  have frame : ∀ l, Part U I P s l → (∀ k, l ≠ .tag (.leaf k)) → heap[s.loc l]? = s.t.heap[s.loc l]? := fun l hl hn =>
    hh _ (fun k hk => h.apart.ne (l' := .tag (.leaf k)) hl hk (hn k))
  refine ⟨⟨fun l hl => ?_, fun l l' h1 h2 h3 => ?_, fun l hl => ?_, fun q hq => ?_⟩, fun v hv => ?_, fun v hv => ?_, fun v hv => ?_, h.sync, h.training, h.reg⟩
  · rw [hloc]
    show _ < heap.length
    rw [hlen]; exact h.apart.lt l ((hpart l).mp hl)
  · rw [hloc, hloc] at h3; exact h.apart.inj l l' ((hpart l).mp h1) ((hpart l').mp h2) h3
  · rw [hloc]; exact h.apart.away l ((hpart l).mp hl)
  · show _ < heap.length
    rw [hlen]; exact h.apart.ext q hq
  · show denote heap (s.t.varT v) = some (os.st.data v)
    rw [denote_congr (frame (.tag (.var v)) hv (by simp))]
    exact h.var v hv
  · show denote heap (s.t.gradT v) = some (os.st.grad v)
    rw [denote_congr (frame (.tag (.grad v)) hv (by simp))]
    exact h.grad v hv
  · refine forall2_heap (fun t ht => ?_) (h.ctx v hv)
    obtain ⟨j, hj, he⟩ := ctx_loc ht
    rw [← he]
    exact frame (.ctx v j) ⟨hv, hj⟩ (by simp)

/-- Place holders bound to tensors of their own. -/
theorem Rel.bind {s : HO} {os : OSt} (h : Rel U I [] X s os) {inp gt : Nat} (hne : inp ≠ gt) (x y : Ten ℝ) (leaf : Nat → Ten ℝ) (b : Bool) :
    Rel U I [inp, gt] X { s with t := { s.t with heap := s.t.heap ++ [x.data] ++ [y.data],
                                                  leafT := upd (upd s.t.leafT inp ⟨x.shape, s.t.heap.length⟩) gt ⟨y.shape, s.t.heap.length + 1⟩, training := b } }
      { os with st := { os.st with leaf := leaf, training := b } } := by
  set s' : HO := { s with t := { s.t with heap := s.t.heap ++ [x.data] ++ [y.data],
                                                  leafT := upd (upd s.t.leafT inp ⟨x.shape, s.t.heap.length⟩) gt ⟨y.shape, s.t.heap.length + 1⟩, training := b } } with hs'
  have lx : s'.loc (.tag (.leaf inp)) = s.t.heap.length := by
    show (upd (upd s.t.leafT inp _) gt _ inp).loc = _
    rw [upd_ne _ _ hne, upd_same]
  have ly : s'.loc (.tag (.leaf gt)) = s.t.heap.length + 1 := by
    show (upd (upd s.t.leafT inp _) gt _ gt).loc = _
    rw [upd_same]
  have len : s'.t.heap.length = s.t.heap.length + 2 := by simp [hs']
  have kind : ∀ l, Part U I [inp, gt] s' l → (Part U I [] s l ∧ s'.loc l = s.loc l) ∨ l = .tag (.leaf inp) ∨ l = .tag (.leaf gt) := by
    intro l hl
    cases l with
    | tag τ =>
      cases τ with
      | leaf k =>
        have hk : k ∈ [inp, gt] := hl
        simp only [List.mem_cons, List.not_mem_nil, or_false] at hk
        rcases hk with rfl | rfl
        · exact Or.inr (Or.inl rfl)
        · exact Or.inr (Or.inr rfl)
      | var v => exact Or.inl ⟨hl, rfl⟩
      | grad v => exact Or.inl ⟨hl, rfl⟩
      | opc i => exact Or.inl ⟨hl, rfl⟩
      | bopc i b => exact Or.inl ⟨hl, rfl⟩
    | ctx v j => exact Or.inl ⟨hl, rfl⟩
  have frame : ∀ q, q < s.t.heap.length → s'.t.heap[q]? = s.t.heap[q]? := fun q hq => by
    show (s.t.heap ++ [x.data] ++ [y.data])[q]? = _
    rw [List.append_assoc, List.getElem?_append_left hq]
  refine ⟨⟨fun l hl => ?_, fun l l' h1 h2 h3 => ?_, fun l hl => ?_, fun q hq => ?_⟩, fun v hv => ?_, fun v hv => ?_, fun v hv => ?_, h.sync, rfl, h.reg⟩
  · rcases kind l hl with ⟨k1, k2⟩ | rfl | rfl
    · have := h.apart.lt l k1
      omega
    · omega
    · omega
  · rcases kind l h1 with ⟨k1, k2⟩ | rfl | rfl <;> rcases kind l' h2 with ⟨k3, k4⟩ | rfl | rfl
    · exact h.apart.inj l l' k1 k3 (by omega)
    · have := h.apart.lt l k1; omega
    · have := h.apart.lt l k1; omega
    · have := h.apart.lt l' k3; omega
    · rfl
    · omega
    · have := h.apart.lt l' k3; omega
    · omega
    · rfl
  · rcases kind l hl with ⟨k1, k2⟩ | rfl | rfl
    · rw [k2]; exact h.apart.away l k1
    · intro hm; have := h.apart.ext _ hm; omega
    · intro hm; have := h.apart.ext _ hm; omega
  · have := h.apart.ext q hq
    omega
  · show denote s'.t.heap (s.t.varT v) = some (os.st.data v)
    rw [denote_congr (frame _ (h.apart.lt (.tag (.var v)) hv))]
    exact h.var v hv
  · show denote s'.t.heap (s.t.gradT v) = some (os.st.grad v)
    rw [denote_congr (frame _ (h.apart.lt (.tag (.grad v)) hv))]
    exact h.grad v hv
  · refine forall2_heap (fun t ht => ?_) (h.ctx v hv)
    obtain ⟨j, hj, he⟩ := ctx_loc ht
    rw [← he]
    exact frame _ (h.apart.lt (.ctx v j) ⟨hv, hj⟩)

/-! ### fit -/

/-- Two loops side by side. -/
theorem loop_sim {σ τ : Type} {n : Nat} {body : Nat → σ → Res σ} {body' : Nat → τ → Res τ} {s t : σ} {s' : τ} (R : Nat → σ → τ → Prop) (h : loop n body s = ok t) (h0 : R 0 s s')
    (hs : ∀ i u u' v, i < n → R i u v → body i u = ok u' → ∃ v', body' i v = ok v' ∧ R (i + 1) u' v') : ∃ t', loop n body' s' = ok t' ∧ R n t t' := by
  induction n generalizing t with
  | zero => rw [loop_zero] at h; cases h; exact ⟨s', rfl, h0⟩
  | succ n ih =>
    rw [loop_succ] at h
    obtain ⟨u, h1, h2⟩ := bind_eq_ok.mp h
    obtain ⟨v, k1, k2⟩ := ih h1 (fun i u u' v hi => hs i u u' v (by omega))
    obtain ⟨v', l1, l2⟩ := hs n u t v (by omega) k2 h2
    exact ⟨v', by rw [loop_succ, k1, bind_ok, l1], l2⟩

/-- `fit` on shared storages and by value, between two batches: the tensors for batches are bound to the place holders, the tensors of the caller hold the samples. -/
structure FRel (M : Prog κ O) (U I X : List Nat) (inT outT : Tn) (inputs outputs : Ten ℝ) (bs : Nat) (f : Frame (κ × O × OSt) ℝ) (g : HFrame κ O) : Prop where
  held : g.s.1 = f.s.1
  opt : g.s.2.1 = f.s.2.1
  rel : Rel U I [M.inp, M.gt] X g.s.2.2 f.s.2.2
  x : g.s.2.2.t.leafT M.inp = g.x
  y : g.s.2.2.t.leafT M.gt = g.y
  xs : g.x.shape = bs :: inputs.shape.tail
  ys : g.y.shape = bs :: outputs.shape.tail
  xl : g.s.2.2.t.heap[g.x.loc]?.map List.length = some (bs * size inputs.shape.tail)
  yl : g.s.2.2.t.heap[g.y.loc]?.map List.length = some (bs * size outputs.shape.tail)
  inputs : denote g.s.2.2.t.heap inT = some inputs
  outputs : denote g.s.2.2.t.heap outT = some outputs
  te : g.te = f.te
  ve : g.ve = f.ve
  log : g.log = f.log
  trainErr : g.trainErr = f.trainErr
  valErr : g.valErr = f.valErr

theorem copyBatch_ok {h : Heap ℝ} {src dst : Tn} {s n : Nat} {b : List ℝ} (hb : h[src.loc]? = some b) (hd : h[dst.loc]?.map List.length = some n) (hn : s + n ≤ b.length) :
    copyBatch h src dst s n = ok ((b.drop s).take n, h.set dst.loc ((b.drop s).take n)) := by
  obtain ⟨d, h1, h2⟩ := Option.map_eq_some_iff.mp hd
  unfold copyBatch
  rw [rd_ok hb, bind_ok, rd_ok h1, bind_ok, copy_batch hn h2, bind_ok, wr_ok (List.getElem?_eq_some_iff.mp h1).1, bind_ok]
  rfl

section
variable {M : Prog κ O} {inT outT : Tn} {inputs outputs : Ten ℝ} {bs n n' : Nat} {a b : List Nat} {XI YO : List Nat → ℝ}

/-- Feeding a batch and running the loss, and a step of the optimizer if there is one. -/
theorem feed_sim (hi : inputs.Has (n :: a) XI) (ho : outputs.Has (n' :: b) YO) (hn : n ≤ n') {l : Nat} (hl : l < n / bs) (hne : M.inp ≠ M.gt) (hX : inT.loc ∈ X) (hX' : outT.loc ∈ X)
    {f : Frame (κ × O × OSt) ℝ} {g : HFrame κ O} (hf : FRel M U I X inT outT inputs outputs bs f g) (hb : Buf inputs outputs bs f)
    (hr : Ready M U I (M.byValue.bind (batch inputs bs l) (batch outputs bs l) f.s)) {e : ℝ} {f' : Frame (κ × O × OSt) ℝ}
    (h : feed M.byValue inputs outputs (bs * size inputs.shape.tail) (bs * size outputs.shape.tail) l f = ok (e, f')) :
    ∃ g', hfeed M inT outT (bs * size inputs.shape.tail) (bs * size outputs.shape.tail) l g = ok (e, g') ∧ FRel M U I X inT outT inputs outputs bs f' g' ∧
      (∃ y, M.byValue.loss (M.byValue.bind (batch inputs bs l) (batch outputs bs l) f.s) = ok (y, f'.s)) ∧ Buf inputs outputs bs f' ∧
      (∀ q ∈ X, g'.s.2.2.t.heap[q]? = g.s.2.2.t.heap[q]?) ∧
      ∀ s2, M.byValue.step f'.s = ok s2 → ∃ h2, M.hrunOpt g'.s = ok (s2.1, s2.2.1, h2) ∧
        (∀ F G, F.s = s2 → G.s = (s2.1, s2.2.1, h2) → G.x = g'.x → G.y = g'.y → G.te = F.te → G.ve = F.ve → G.log = F.log → G.trainErr = F.trainErr → G.valErr = F.valErr →
          FRel M U I X inT outT inputs outputs bs F G) ∧ ∀ q ∈ X, h2.t.heap[q]? = g.s.2.2.t.heap[q]? := by
  have hia : inputs.shape.tail = a := by rw [hi.1]; rfl
  have hob : outputs.shape.tail = b := by rw [ho.1]; rfl
  have hlen : inputs.data.length = n * size a := by rw [hi.2.1]; rfl
  have hlen' : outputs.data.length = n' * size b := by rw [ho.2.1]; rfl
  have hl' : l < n' / bs := lt_of_lt_of_le hl (Nat.div_le_div_right hn)
  rw [feed_eq hi ho hn hl hb] at h
  obtain ⟨⟨y, s1⟩, h1, h⟩ := bind_eq_ok.mp h
  obtain ⟨e', h2, h⟩ := bind_eq_ok.mp h
  simp only [pure_eq, ok.injEq, Prod.mk.injEq] at h
  obtain ⟨rfl, rfl⟩ := h
  have part : ∀ k ∈ [M.inp, M.gt], Part U I [M.inp, M.gt] g.s.2.2 (.tag (.leaf k)) := fun k hk => hk
  have pi := part M.inp (by simp)
  have pg := part M.gt (by simp)
  have xlt : g.x.loc < g.s.2.2.t.heap.length := by rw [← hf.x]; exact hf.rel.apart.lt _ pi
  have ylt : g.y.loc < g.s.2.2.t.heap.length := by rw [← hf.y]; exact hf.rel.apart.lt _ pg
  have xX : g.x.loc ∉ X := by rw [← hf.x]; exact hf.rel.apart.away _ pi
  have yX : g.y.loc ∉ X := by rw [← hf.y]; exact hf.rel.apart.away _ pg
  have xy : g.x.loc ≠ g.y.loc := by rw [← hf.x, ← hf.y]; exact hf.rel.apart.ne pi pg (by simpa using hne)
  have ci := copyBatch_ok (h := g.s.2.2.t.heap) (src := inT) (dst := g.x) (s := l * (bs * size inputs.shape.tail)) (denote_some hf.inputs).1 hf.xl (by rw [hia, hlen]; exact batch_inside hl)
  set dx := (inputs.data.drop (l * (bs * size inputs.shape.tail))).take (bs * size inputs.shape.tail) with hdx
  set dy := (outputs.data.drop (l * (bs * size outputs.shape.tail))).take (bs * size outputs.shape.tail) with hdy
  have co := copyBatch_ok (h := g.s.2.2.t.heap.set g.x.loc dx) (src := outT) (dst := g.y) (s := l * (bs * size outputs.shape.tail)) (n := bs * size outputs.shape.tail) (b := outputs.data)
    (by rw [List.getElem?_set_ne (fun hc => xX (by rw [hc]; exact hX'))]; exact (denote_some hf.outputs).1)
    (by rw [List.getElem?_set_ne xy]; exact hf.yl) (by rw [hob, hlen']; exact batch_inside hl')
  set heap := (g.s.2.2.t.heap.set g.x.loc dx).set g.y.loc dy with hheap
  have hbx : (⟨g.x.shape, dx⟩ : Ten ℝ) = batch inputs bs l := by rw [hf.xs]; rfl
  have hby : (⟨g.y.shape, dy⟩ : Ten ℝ) = batch outputs bs l := by rw [hf.ys]; rfl
  have keep : ∀ q, q ≠ g.x.loc → q ≠ g.y.loc → heap[q]? = g.s.2.2.t.heap[q]? := fun q h1 h2 => by
    rw [hheap, List.getElem?_set_ne h2.symm, List.getElem?_set_ne h1.symm]
  have heapX : heap[g.x.loc]? = some dx := by
    rw [hheap, List.getElem?_set_ne xy.symm]; simp [xlt]
  have heapY : heap[g.y.loc]? = some dy := by
    rw [hheap]; simp [ylt]
  obtain ⟨⟨q, o, os⟩, fx, fy, fte, fve, flog, ftr, fva⟩ := f
  obtain ⟨⟨q', o', s⟩, gx, gy, gte, gve, glog, gtr, gva⟩ := g
  obtain ⟨r1, r2, r3, r4, r5, r6, r7, r8, r9, r10, r11, r12, r13, r14, r15, r16⟩ := hf
  dsimp only at r1 r2 r3 r4 r5 r6 r7 r8 r9 r10 r11 r12 r13 r14 r15 r16 xlt ylt xX yX xy ci co keep heapX heapY hbx hby h1 hr hb
  subst r1 r2 r12 r13 r14 r15 r16
  have R : Rel U I [M.inp, M.gt] X { s with t := { s.t with heap := heap } } { os with st := { os.st with leaf := upd (upd os.st.leaf M.inp (batch inputs bs l)) M.gt (batch outputs bs l) } } := by
    refine r3.feed (by rw [hheap]; simp) (fun q hq => keep q ?_ ?_)
    · rw [← r4]; exact hq M.inp (by simp)
    · rw [← r5]; exact hq M.gt (by simp)
  have lenx : dx.length = bs * size inputs.shape.tail := by
    rw [hdx, List.length_take, List.length_drop]
    have : l * (bs * size inputs.shape.tail) + bs * size inputs.shape.tail ≤ inputs.data.length := by rw [hia, hlen]; exact batch_inside hl
    omega
  have leny : dy.length = bs * size outputs.shape.tail := by
    rw [hdy, List.length_take, List.length_drop]
    have : l * (bs * size outputs.shape.tail) + bs * size outputs.shape.tail ≤ outputs.data.length := by rw [hob, hlen']; exact batch_inside hl'
    omega
  obtain ⟨x, h1', k1, k2, k3, k4, k5, k6, _, k7⟩ := loss_sim (M := M) (q := q') (o := o') (s := { s with t := { s.t with heap := heap } }) R hr
    (by
      dsimp only
      rw [r4, upd_ne _ _ hne, upd_same, ← hbx]
      simp [denote, heapX])
    (by
      dsimp only
      rw [r5, upd_same, ← hby]
      simp [denote, heapY]) h1
  have ext : ∀ q ∈ X, heap[q]? = s.t.heap[q]? := fun q hq => keep q (fun hc => xX (by rw [← hc]; exact hq)) (fun hc => yX (by rw [← hc]; exact hq))
  have mk : ∀ (h2 : HO) (s2 : κ × O × OSt), Rel U I [M.inp, M.gt] X h2 s2.2.2 → Stays [M.inp, M.gt] X { s with t := { s.t with heap := heap } } h2 →
      (∀ F G, F.s = s2 → G.s = (s2.1, s2.2.1, h2) → G.x = gx → G.y = gy → G.te = F.te → G.ve = F.ve → G.log = F.log → G.trainErr = F.trainErr → G.valErr = F.valErr →
          FRel M U I X inT outT inputs outputs bs F G) ∧ ∀ q ∈ X, h2.t.heap[q]? = s.t.heap[q]? := by
    intro h2 s2 hrel hst
    refine ⟨?_, fun q hq => (hst.ext q hq).trans (ext q hq)⟩
    rintro F G e1 e2 e3 e4 e5 e6 e7 e8 e9
    have hlf : h2.t.leafT = s.t.leafT := hst.leafT
    refine ⟨by rw [e1, e2], by rw [e1, e2], by rw [e1, e2]; exact hrel, by rw [e2, e3]; dsimp only; rw [hlf]; exact r4, by rw [e2, e4]; dsimp only; rw [hlf]; exact r5,
      by rw [e3]; exact r6, by rw [e4]; exact r7, ?_, ?_, ?_, ?_, e5, e6, e7, e8, e9⟩
    · have := hst.len M.inp (by simp)
      dsimp only at this
      rw [r4] at this
      rw [e2, e3]
      dsimp only
      rw [this, heapX, Option.map_some, lenx]
    · have := hst.len M.gt (by simp)
      dsimp only at this
      rw [r5] at this
      rw [e2, e4]
      dsimp only
      rw [this, heapY, Option.map_some, leny]
    · rw [e2, denote_congr ((hst.ext _ hX).trans (ext _ hX))]; exact r10
    · rw [e2, denote_congr ((hst.ext _ hX').trans (ext _ hX'))]; exact r11
  obtain ⟨m1, m2⟩ := mk h1' s1 k5 k6
  refine ⟨⟨(q', o', h1'), gx, gy, gte, gve, glog ++ [.feed (batch inputs bs l) (batch outputs bs l), .loss e'], gtr, gva⟩, ?_, m1 _ _ rfl (by rw [k2, k3]) rfl rfl rfl rfl rfl rfl rfl,
    ⟨y, h1⟩, batch_buf hi ho hn hl _ rfl rfl, m2, fun s2 hs2 => ?_⟩
  · unfold hfeed
    dsimp only
    rw [ci, bind_ok]
    dsimp only
    rw [co, bind_ok]
    dsimp only
    unfold withHeap
    dsimp only
    rw [k1, bind_ok]
    dsimp only
    rw [readT_ok k4, bind_ok, h2, bind_ok, hbx, hby]
    rfl
  · obtain ⟨h2', l1, l2, l3, _⟩ := k7 s2 hs2
    exact ⟨h2', l1, mk h2' s2 l2 l3⟩

/-- What has to be known of the program by value: before batch `l` of epoch `ep` it is in a state `P (ep * N + l)`, and in these states the loss does not suffer from
sharing, with the batch bound to the place holders. -/
structure Invariant (M : Prog κ O) (U I : List Nat) (Xb Yb : Nat → Ten ℝ) (N T epochs : Nat) (P : Nat → κ × O × OSt → Prop) : Prop where
  ready : ∀ ep l s, ep < epochs → l < N → P (ep * N + l) s → Ready M U I (M.byValue.bind (Xb l) (Yb l) s)
  trained : ∀ ep l s y s1 s2, ep < epochs → l < N → l ≤ T → P (ep * N + l) s → M.byValue.loss (M.byValue.bind (Xb l) (Yb l) s) = ok (y, s1) → M.byValue.step s1 = ok s2 → P (ep * N + l + 1) s2
  validated : ∀ ep l s y s1, ep < epochs → l < N → T < l → P (ep * N + l) s → M.byValue.loss (M.byValue.bind (Xb l) (Yb l) s) = ok (y, s1) → P (ep * N + l + 1) s1

theorem hbuffer_ok {t : Tn} {T : Ten ℝ} {X : List Nat → ℝ} (ht : T.Has (n :: a) X) (hs : T.shape = t.shape) (h : Heap ℝ) :
    hbuffer t bs h = ok (⟨bs :: T.shape.tail, h.length⟩, h ++ [List.replicate (size (bs :: T.shape.tail)) 0]) := by
  unfold hbuffer
  rw [← hs, ht.1, wr_ok (by simp)]
  rfl

/-- C113. `fit` on shared storages: whenever `fit` by value gives a result, so does `fit` on shared storages, with the same history and the same errors; the variables,
gradients and contexts hold the same; and the storages of the caller, among them those of the samples, keep their contents. -/
theorem fit_shared (hi : inputs.Has (n :: a) XI) (ho : outputs.Has (n' :: b) YO) (hn : n ≤ n') (hne : M.inp ≠ M.gt) {q : κ} {o : O} {s : HO} {os : OSt} (h : Rel U I [] X s os)
    (hX : inT.loc ∈ X) (hX' : outT.loc ∈ X) (hdi : denote s.t.heap inT = some inputs) (hdo : denote s.t.heap outT = some outputs) {epochs : Nat} {split : ℚ}
    {P : Nat → κ × O × OSt → Prop} (hP : Invariant M U I (batch inputs bs) (batch outputs bs) (n / bs) (trainingLoops split (n / bs)) epochs P)
    (h0 : ∀ x y, P 0 (M.byValue.phase true (M.byValue.bind x y (q, o, os)))) {f : Frame (κ × O × OSt) ℝ}
    (hv : fit M.byValue inputs outputs bs epochs split (q, o, os) = ok f) :
    ∃ g, hfit M inT outT bs epochs split (q, o, s) = ok g ∧ g.log = f.log ∧ g.trainErr = f.trainErr ∧ g.valErr = f.valErr ∧ g.s.1 = f.s.1 ∧ g.s.2.1 = f.s.2.1 ∧
      Rel U I [M.inp, M.gt] X g.s.2.2 f.s.2.2 ∧ (∀ q ∈ X, g.s.2.2.t.heap[q]? = s.t.heap[q]?) ∧ P (epochs * (n / bs)) f.s := by
  have hsi := (denote_some hdi).2
  have hso := (denote_some hdo).2
  unfold fit at hv
  rw [rd_ok (v := n) (by rw [hi.1]; rfl), bind_ok] at hv
  obtain ⟨_, hbs, hv⟩ := bind_eq_ok.mp hv
  rw [buffer_ok hi, buffer_ok ho, bind_ok, bind_ok] at hv
  dsimp only at hv
  unfold hfit
  dsimp only
  rw [← hsi, rd_ok (v := n) (by rw [hi.1]; rfl), bind_ok, hbs, bind_ok, hbuffer_ok hi hsi, bind_ok]
  dsimp only
  rw [hbuffer_ok ho hso, bind_ok]
  dsimp only
  have hxl : (List.replicate (size (bs :: inputs.shape.tail)) (0 : ℝ)).length = bs * size inputs.shape.tail := by simp
  have hyl : (List.replicate (size (bs :: outputs.shape.tail)) (0 : ℝ)).length = bs * size outputs.shape.tail := by simp
  rw [hxl, hyl] at hv
  have hzx : size (bs :: inputs.shape.tail) = bs * size inputs.shape.tail := size_cons _ _
  have hzy : size (bs :: outputs.shape.tail) = bs * size outputs.shape.tail := size_cons _ _
  set T := trainingLoops split (n / bs) with hT
  set N := n / bs with hN
  set x0 : Ten ℝ := ⟨bs :: inputs.shape.tail, List.replicate (size (bs :: inputs.shape.tail)) 0⟩ with hx0
  set y0 : Ten ℝ := ⟨bs :: outputs.shape.tail, List.replicate (size (bs :: outputs.shape.tail)) 0⟩ with hy0
  have hR := h.bind hne x0 y0 (upd (upd os.st.leaf M.inp x0) M.gt y0) true
  have hin : inT.loc < s.t.heap.length := h.apart.ext _ hX
  have hout : outT.loc < s.t.heap.length := h.apart.ext _ hX'
  have old : ∀ q, q < s.t.heap.length → (s.t.heap ++ [x0.data] ++ [y0.data])[q]? = s.t.heap[q]? := fun q hq => by rw [List.append_assoc, List.getElem?_append_left hq]
  have fx : upd (upd s.t.leafT M.inp ⟨x0.shape, s.t.heap.length⟩) M.gt ⟨y0.shape, s.t.heap.length + 1⟩ M.inp = ⟨x0.shape, s.t.heap.length⟩ := by rw [upd_ne _ _ hne, upd_same]
  have fy : upd (upd s.t.leafT M.inp ⟨x0.shape, s.t.heap.length⟩) M.gt ⟨y0.shape, s.t.heap.length + 1⟩ M.gt = ⟨y0.shape, s.t.heap.length + 1⟩ := by rw [upd_same]
  have fxl : Option.map List.length (s.t.heap ++ [x0.data] ++ [y0.data])[s.t.heap.length]? = some (bs * size inputs.shape.tail) := by simp [hx0]
  have fyl : Option.map List.length (s.t.heap ++ [x0.data] ++ [y0.data])[s.t.heap.length + 1]? = some (bs * size outputs.shape.tail) := by simp [hy0]
  have fi : denote (s.t.heap ++ [x0.data] ++ [y0.data]) inT = some inputs := by rw [denote_congr (old _ hin)]; exact hdi
  have fo : denote (s.t.heap ++ [x0.data] ++ [y0.data]) outT = some outputs := by rw [denote_congr (old _ hout)]; exact hdo
  obtain ⟨g, g1, g2, g3, g4, g5⟩ := loop_sim (body' := fun _ f => do
      let f ← loop N (hfitBody M inT outT (bs * size inputs.shape.tail) (bs * size outputs.shape.tail) T) { f with te := 0, ve := 0 }
      pure { f with trainErr := f.trainErr ++ [f.te / (T : ℝ)], valErr := f.valErr ++ [f.ve / ((N - T : Nat) : ℝ)] })
    (s' := (⟨hphase true (M.hbind ⟨x0.shape, s.t.heap.length⟩ ⟨y0.shape, s.t.heap.length + 1⟩ (withHeap (s.t.heap ++ [x0.data] ++ [y0.data]) (q, o, s))),
      ⟨x0.shape, s.t.heap.length⟩, ⟨y0.shape, s.t.heap.length + 1⟩, 0, 0, [], [], []⟩ : HFrame κ O))
    (fun ep f g => FRel M U I X inT outT inputs outputs bs f g ∧ Buf inputs outputs bs f ∧ (∀ q ∈ X, g.s.2.2.t.heap[q]? = s.t.heap[q]?) ∧ P (ep * N) f.s) hv
    ⟨⟨rfl, rfl, hR, fx, fy, rfl, rfl, fxl, fyl, fi, fo, rfl, rfl, rfl, rfl, rfl⟩, ⟨rfl, hxl, rfl, hyl⟩, fun q hq => old q (h.apart.ext q hq), by rw [Nat.zero_mul]; exact h0 x0 y0⟩ (by
    rintro ep u u' v hep ⟨hF, hB, hext, hPu⟩ hbody
    obtain ⟨w, hw, hbody⟩ := bind_eq_ok.mp hbody
    simp only [pure_eq, ok.injEq] at hbody
    obtain ⟨w', k1, k2, k3, k4, k5⟩ := loop_sim (body' := hfitBody M inT outT (bs * size inputs.shape.tail) (bs * size outputs.shape.tail) T) (s' := { v with te := 0, ve := 0 })
      (fun l f g => FRel M U I X inT outT inputs outputs bs f g ∧ Buf inputs outputs bs f ∧ (∀ q ∈ X, g.s.2.2.t.heap[q]? = s.t.heap[q]?) ∧ P (ep * N + l) f.s) hw
      ⟨⟨hF.1, hF.2, hF.3, hF.4, hF.5, hF.6, hF.7, hF.8, hF.9, hF.10, hF.11, rfl, rfl, hF.14, hF.15, hF.16⟩, ⟨hB.1, hB.2, hB.3, hB.4⟩, hext, hPu⟩ (by
        rintro l u u' v hl ⟨hF, hB, hext, hPu⟩ hb
        unfold fitBody at hb
        unfold hfitBody
        obtain ⟨⟨e, f1⟩, hfd, hb⟩ := bind_eq_ok.mp hb
        obtain ⟨v1, j1, j2, ⟨y, j3⟩, j4, j5, j6⟩ := feed_sim hi ho hn hl hne hX hX' hF hB (hP.ready ep l u.s hep hl hPu) hfd
        rw [j1, bind_ok]
        dsimp only at hb ⊢
        by_cases hlT : l ≤ T
        · rw [if_pos hlT] at hb ⊢
          obtain ⟨s2, hs2, hb⟩ := bind_eq_ok.mp hb
          simp only [pure_eq, ok.injEq] at hb
          subst hb
          obtain ⟨h2, i1, i2, i3⟩ := j6 s2 hs2
          rw [i1, bind_ok]
          refine ⟨_, rfl, i2 _ _ rfl rfl rfl rfl ?_ j2.ve ?_ j2.trainErr j2.valErr, ⟨j4.1, j4.2, j4.3, j4.4⟩, fun q hq => (i3 q hq).trans (hext q hq), hP.trained ep l u.s y f1.s s2 hep hl hlT hPu j3 hs2⟩
          · dsimp only; rw [j2.te]
          · dsimp only; rw [j2.log]
        · rw [if_neg hlT] at hb ⊢
          simp only [pure_eq, ok.injEq] at hb
          subst hb
          refine ⟨_, rfl, ⟨j2.1, j2.2, j2.3, j2.4, j2.5, j2.6, j2.7, j2.8, j2.9, j2.10, j2.11, j2.12, ?_, j2.14, j2.15, j2.16⟩, ⟨j4.1, j4.2, j4.3, j4.4⟩, fun q hq => (j5 q hq).trans (hext q hq),
            hP.validated ep l u.s y f1.s hep hl (by omega) hPu j3⟩
          dsimp only
          rw [j2.ve])
    subst hbody
    rw [k1, bind_ok]
    refine ⟨_, rfl, ⟨k2.1, k2.2, k2.3, k2.4, k2.5, k2.6, k2.7, k2.8, k2.9, k2.10, k2.11, k2.12, k2.13, k2.14, ?_, ?_⟩, ⟨k3.1, k3.2, k3.3, k3.4⟩, k4, ?_⟩
    · dsimp only
      rw [k2.trainErr, k2.te]
    · dsimp only
      rw [k2.valErr, k2.ve]
    · rw [Nat.succ_mul]; exact k5)
  refine ⟨g, ?_, g2.log, g2.trainErr, g2.valErr, g2.held, g2.opt, g2.rel, g4, g5⟩
  rw [← g1, hzx, hzy, List.length_append]
  rfl

/-- C113 for `evaluate`. -/
theorem evaluate_shared (hi : inputs.Has (n :: a) XI) (ho : outputs.Has (n' :: b) YO) (hn : n ≤ n') (hne : M.inp ≠ M.gt) {q : κ} {o : O} {s : HO} {os : OSt} (h : Rel U I [] X s os)
    (hX : inT.loc ∈ X) (hX' : outT.loc ∈ X) (hdi : denote s.t.heap inT = some inputs) (hdo : denote s.t.heap outT = some outputs)
    {P : Nat → κ × O × OSt → Prop} (hP : ∀ l s, l < n / bs → P l s → Ready M U I (M.byValue.bind (batch inputs bs l) (batch outputs bs l) s))
    (hP' : ∀ l s y s1, l < n / bs → P l s → M.byValue.loss (M.byValue.bind (batch inputs bs l) (batch outputs bs l) s) = ok (y, s1) → P (l + 1) s1)
    (h0 : ∀ x y, P 0 (M.byValue.phase false (M.byValue.bind x y (q, o, os)))) {r : ℝ} {f : Frame (κ × O × OSt) ℝ}
    (hv : evaluate M.byValue inputs outputs bs (q, o, os) = ok (r, f)) :
    ∃ g, hevaluate M inT outT bs (q, o, s) = ok (r, g) ∧ g.log = f.log ∧ g.s.1 = f.s.1 ∧ g.s.2.1 = f.s.2.1 ∧
      Rel U I [M.inp, M.gt] X g.s.2.2 f.s.2.2 ∧ ∀ q ∈ X, g.s.2.2.t.heap[q]? = s.t.heap[q]? := by
  have hsi := (denote_some hdi).2
  have hso := (denote_some hdo).2
  unfold evaluate at hv
  rw [rd_ok (v := n) (by rw [hi.1]; rfl), bind_ok] at hv
  obtain ⟨_, hbs, hv⟩ := bind_eq_ok.mp hv
  rw [buffer_ok hi, buffer_ok ho, bind_ok, bind_ok] at hv
  dsimp only at hv
  unfold hevaluate
  dsimp only
  rw [← hsi, rd_ok (v := n) (by rw [hi.1]; rfl), bind_ok, hbs, bind_ok, hbuffer_ok hi hsi, bind_ok]
  dsimp only
  rw [hbuffer_ok ho hso, bind_ok]
  dsimp only
  have hxl : (List.replicate (size (bs :: inputs.shape.tail)) (0 : ℝ)).length = bs * size inputs.shape.tail := by simp
  have hyl : (List.replicate (size (bs :: outputs.shape.tail)) (0 : ℝ)).length = bs * size outputs.shape.tail := by simp
  rw [hxl, hyl] at hv
  have hzx : size (bs :: inputs.shape.tail) = bs * size inputs.shape.tail := size_cons _ _
  have hzy : size (bs :: outputs.shape.tail) = bs * size outputs.shape.tail := size_cons _ _
  obtain ⟨f1, hw, hv'⟩ := bind_eq_ok.mp hv
  simp only [pure_eq, ok.injEq, Prod.mk.injEq] at hv'
  obtain ⟨rfl, rfl⟩ := hv'
  set N := n / bs with hN
  set x0 : Ten ℝ := ⟨bs :: inputs.shape.tail, List.replicate (size (bs :: inputs.shape.tail)) 0⟩ with hx0
  set y0 : Ten ℝ := ⟨bs :: outputs.shape.tail, List.replicate (size (bs :: outputs.shape.tail)) 0⟩ with hy0
  have hR := h.bind hne x0 y0 (upd (upd os.st.leaf M.inp x0) M.gt y0) false
  have hin : inT.loc < s.t.heap.length := h.apart.ext _ hX
  have hout : outT.loc < s.t.heap.length := h.apart.ext _ hX'
  have old : ∀ q, q < s.t.heap.length → (s.t.heap ++ [x0.data] ++ [y0.data])[q]? = s.t.heap[q]? := fun q hq => by rw [List.append_assoc, List.getElem?_append_left hq]
  have fx : upd (upd s.t.leafT M.inp ⟨x0.shape, s.t.heap.length⟩) M.gt ⟨y0.shape, s.t.heap.length + 1⟩ M.inp = ⟨x0.shape, s.t.heap.length⟩ := by rw [upd_ne _ _ hne, upd_same]
  have fy : upd (upd s.t.leafT M.inp ⟨x0.shape, s.t.heap.length⟩) M.gt ⟨y0.shape, s.t.heap.length + 1⟩ M.gt = ⟨y0.shape, s.t.heap.length + 1⟩ := by rw [upd_same]
  have fxl : Option.map List.length (s.t.heap ++ [x0.data] ++ [y0.data])[s.t.heap.length]? = some (bs * size inputs.shape.tail) := by simp [hx0]
  have fyl : Option.map List.length (s.t.heap ++ [x0.data] ++ [y0.data])[s.t.heap.length + 1]? = some (bs * size outputs.shape.tail) := by simp [hy0]
  have fi : denote (s.t.heap ++ [x0.data] ++ [y0.data]) inT = some inputs := by rw [denote_congr (old _ hin)]; exact hdi
  have fo : denote (s.t.heap ++ [x0.data] ++ [y0.data]) outT = some outputs := by rw [denote_congr (old _ hout)]; exact hdo
  obtain ⟨g, g1, g2, g3, g4, g5⟩ := loop_sim (body' := fun l f => do
      let (e, f) ← hfeed M inT outT (bs * size inputs.shape.tail) (bs * size outputs.shape.tail) l f
      pure { f with ve := f.ve + e })
    (s' := (⟨hphase false (M.hbind ⟨x0.shape, s.t.heap.length⟩ ⟨y0.shape, s.t.heap.length + 1⟩ (withHeap (s.t.heap ++ [x0.data] ++ [y0.data]) (q, o, s))),
      ⟨x0.shape, s.t.heap.length⟩, ⟨y0.shape, s.t.heap.length + 1⟩, 0, 0, [], [], []⟩ : HFrame κ O))
    (fun l f g => FRel M U I X inT outT inputs outputs bs f g ∧ Buf inputs outputs bs f ∧ (∀ q ∈ X, g.s.2.2.t.heap[q]? = s.t.heap[q]?) ∧ P l f.s) hw
    ⟨⟨rfl, rfl, hR, fx, fy, rfl, rfl, fxl, fyl, fi, fo, rfl, rfl, rfl, rfl, rfl⟩, ⟨rfl, hxl, rfl, hyl⟩, fun q hq => old q (h.apart.ext q hq), h0 x0 y0⟩ (by
    rintro l u u' v hl ⟨hF, hB, hext, hPu⟩ hb
    obtain ⟨⟨e, f1⟩, hfd, hb⟩ := bind_eq_ok.mp hb
    obtain ⟨v1, j1, j2, ⟨y, j3⟩, j4, j5, j6⟩ := feed_sim hi ho hn hl hne hX hX' hF hB (hP l u.s hl hPu) hfd
    simp only [pure_eq, ok.injEq] at hb
    subst hb
    rw [j1, bind_ok]
    refine ⟨_, rfl, ⟨j2.1, j2.2, j2.3, j2.4, j2.5, j2.6, j2.7, j2.8, j2.9, j2.10, j2.11, j2.12, ?_, j2.14, j2.15, j2.16⟩, ⟨j4.1, j4.2, j4.3, j4.4⟩, fun q hq => (j5 q hq).trans (hext q hq),
      hP' l u.s y f1.s hl hPu j3⟩
    dsimp only
    rw [j2.ve])
  refine ⟨{ g with s := hphase true g.s }, ?_, g2.log, g2.held, g2.opt, ?_, g4⟩
  · rw [hzx, hzy, List.length_append]
    refine bind_eq_ok.mpr ⟨g, ?_, ?_⟩
    · rw [← g1]
      rfl
    · rw [g2.ve]
      rfl
  · have R := g2.rel
    exact ⟨⟨fun l hl => R.apart.lt l (by cases l with | tag τ => cases τ <;> exact hl | ctx v j => exact hl),
      fun l l' h1 h2 h3 => R.apart.inj l l' (by cases l with | tag τ => cases τ <;> exact h1 | ctx v j => exact h1) (by cases l' with | tag τ => cases τ <;> exact h2 | ctx v j => exact h2)
        (by rw [show g.s.2.2.loc l = (hphase true g.s).2.2.loc l from by cases l with | tag τ => cases τ <;> rfl | ctx v j => rfl, h3]; cases l' with | tag τ => cases τ <;> rfl | ctx v j => rfl),
      fun l hl => by
        have := R.apart.away l (by cases l with | tag τ => cases τ <;> exact hl | ctx v j => exact hl)
        rw [show g.s.2.2.loc l = (hphase true g.s).2.2.loc l from by cases l with | tag τ => cases τ <;> rfl | ctx v j => rfl] at this
        exact this,
      R.apart.ext⟩, R.var, R.grad, R.ctx, R.sync, rfl, R.reg⟩

end
end
end Verif.Runs
