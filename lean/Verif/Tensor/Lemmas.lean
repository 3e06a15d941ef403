import Verif.Tensor.Spec
/-!
# Helper lemmas for tensors
-/
namespace Verif.Tensor
open Verif Res

variable {α : Type}

theorem loop_ok_inv {σ : Type} {n : Nat} {body : Nat → σ → Res σ} {s t : σ} (P : σ → Prop) (h0 : P s)
    (hs : ∀ i a b, body i a = ok b → P a → P b) (h : loop n body s = ok t) : P t := by
  induction n generalizing t with
  | zero => rw [loop_zero] at h; cases h; exact h0
  | succ n ih =>
    rw [loop_succ, bind_eq_ok] at h
    obtain ⟨u, hu, hb⟩ := h
    exact hs n u t hb (ih hu)

theorem wr_eq_ok {β : Type} {b b' : List β} {i : Nat} {v : β} : wr b i v = ok b' ↔ i < b.length ∧ b' = b.set i v := by
  unfold wr; split <;> simp_all [eq_comm]

theorem rd_lt {β : Type} {b : List β} {i : Nat} {v : β} (h : rd b i = ok v) : i < b.length := by
  rw [rd_eq_ok] at h; exact (List.getElem?_eq_some_iff.mp h).1

theorem set_self_of_getElem? {β : Type} {l : List β} {i : Nat} {v : β} (h : l[i]? = some v) : l.set i v = l := by
  apply List.ext_getElem?
  intro k
  by_cases e : k = i
  · subst e; rw [List.getElem?_set_self (List.getElem?_eq_some_iff.mp h).1, h]
  · rw [List.getElem?_set_ne (Ne.symm e)]

/-- Same number of storages, same lengths. -/
def SameLens (h h' : Heap α) : Prop := h'.map List.length = h.map List.length

theorem SameLens.refl (h : Heap α) : SameLens h h := rfl
theorem SameLens.trans {a b c : Heap α} (h1 : SameLens a b) (h2 : SameLens b c) : SameLens a c := Eq.trans h2 h1

theorem SameLens.get {h h' : Heap α} (e : SameLens h h') (l : Nat) : (h'[l]?).map List.length = (h[l]?).map List.length := by
  have := congrArg (fun x => x[l]?) e
  simpa using this

theorem sameLens_set {h : Heap α} {l : Nat} {b b' : List α} (hb : h[l]? = some b) (e : b'.length = b.length) :
    SameLens h (h.set l b') := by
  unfold SameLens
  apply List.ext_getElem?
  intro k
  simp only [List.getElem?_map, List.getElem?_set]
  split
  · next hk =>
    subst hk
    rw [if_pos (List.getElem?_eq_some_iff.mp hb).1, hb]; simp [e]
  · rfl

theorem setT_eq_ok {h h' : Heap α} {t : Tn} {i : Nat} {v : α} (e : setT h t i v = ok h') :
    ∃ b, h[t.loc]? = some b ∧ i < b.length ∧ h' = h.set t.loc (b.set i v) := by
  simp only [setT, bind_eq_ok, rd_eq_ok, wr_eq_ok] at e
  obtain ⟨b, hb, b', ⟨hi, rfl⟩, _, rfl⟩ := e
  exact ⟨b, hb, hi, rfl⟩

theorem setT_ok {h : Heap α} {t : Tn} {i : Nat} {v : α} {b : List α} (hb : h[t.loc]? = some b) (hi : i < b.length) :
    setT h t i v = ok (h.set t.loc (b.set i v)) := by
  simp only [setT, rd_ok hb, bind_ok, wr_ok hi, wr_ok (List.getElem?_eq_some_iff.mp hb).1]

theorem setT_sameLens {h h' : Heap α} {t : Tn} {i : Nat} {v : α} (e : setT h t i v = ok h') : SameLens h h' := by
  obtain ⟨b, hb, _, rfl⟩ := setT_eq_ok e
  exact sameLens_set hb (by simp)

theorem zipInto_sameLens {f : α → α → α} {h h' : Heap α} {x y : Tn} (e : zipInto f h x y = ok h') : SameLens h h' := by
  simp only [zipInto, bind_eq_ok] at e
  obtain ⟨n, _, e⟩ := e
  refine loop_ok_inv (fun g => SameLens h g) (SameLens.refl h) ?_ e
  intro i a b hab hP
  simp only [bind_eq_ok] at hab
  obtain ⟨_, _, _, _, hab⟩ := hab
  exact hP.trans (setT_sameLens hab)

theorem mapT_sameLens {f : α → α} {h h' : Heap α} {x : Tn} (e : mapT f h x = ok h') : SameLens h h' := by
  simp only [mapT, bind_eq_ok] at e
  obtain ⟨n, _, e⟩ := e
  refine loop_ok_inv (fun g => SameLens h g) (SameLens.refl h) ?_ e
  intro i a b hab hP
  simp only [bind_eq_ok] at hab
  obtain ⟨_, _, hab⟩ := hab
  exact hP.trans (setT_sameLens hab)

theorem copyN_length {src dst out : List α} {n : Nat} (e : copyN src n dst = ok out) : out.length = dst.length := by
  refine loop_ok_inv (fun g => g.length = dst.length) rfl ?_ e
  intro i a b hab hP
  simp only [bind_eq_ok, wr_eq_ok] at hab
  obtain ⟨_, _, _, rfl⟩ := hab
  simpa using hP

theorem copyN_full {src dst : List α} (e : dst.length = src.length) : copyN src src.length dst = ok src := by
  obtain ⟨o, h1, h2, h3⟩ := loop_inv (n := src.length) (body := fun i (d : List α) => do let x ← rd src i; wr d i x) (s := dst)
    (fun i d => d.length = src.length ∧ ∀ k, k < i → d[k]? = src[k]?) ⟨e, fun k hk => absurd hk (by omega)⟩ (by
      rintro i t hi ⟨hl, hk⟩
      refine ⟨t.set i src[i], ?_, by simpa using hl, ?_⟩
      · rw [rd_ok (List.getElem?_eq_getElem hi), bind_ok, wr_ok (by omega)]
      · intro k hki
        by_cases hk' : k = i
        · subst hk'; rw [List.getElem?_set_self (by omega), List.getElem?_eq_getElem hi]
        · rw [List.getElem?_set_ne (Ne.symm hk'), hk k (by omega)])
  rw [copyN, h1]
  congr 1
  apply List.ext_getElem?
  intro k
  by_cases hk : k < src.length
  · exact h3 k hk
  · rw [List.getElem?_eq_none (by omega), List.getElem?_eq_none (by omega)]

/-- In-place element-wise loop on possibly shared storages. -/
theorem zipInto_spec {f : α → α → α} {h : Heap α} {x y : Tn} {bx by' : List α} (hx : h[x.loc]? = some bx)
    (hy : h[y.loc]? = some by') (hl : bx.length ≤ by'.length) :
    ∃ b', zipInto f h x y = ok (h.set x.loc b') ∧ b'.length = bx.length ∧
      ∀ (i : Nat) (u v : α), bx[i]? = some u → by'[i]? = some v → b'[i]? = some (f u v) := by
  have hxl : x.loc < h.length := (List.getElem?_eq_some_iff.mp hx).1
  obtain ⟨g, h1, b', rfl, h2, h3, _⟩ := loop_inv (n := bx.length)
    (body := fun i (h : Heap α) => do
      let a ← getT h x i
      let b ← getT h y i
      setT h x i (f a b)) (s := h)
    (fun i g => ∃ b : List α, g = h.set x.loc b ∧ b.length = bx.length ∧
      (∀ k u v, k < i → bx[k]? = some u → by'[k]? = some v → b[k]? = some (f u v)) ∧ ∀ k, i ≤ k → b[k]? = bx[k]?)
    ⟨bx, by rw [set_self_of_getElem? hx], rfl, fun k _ _ hk => absurd hk (by omega), fun _ _ => rfl⟩ (by
      rintro i g hi ⟨b, rfl, hb1, hb2, hb3⟩
      have hgx : (h.set x.loc b)[x.loc]? = some b := by rw [List.getElem?_set_self hxl]
      have hbi : b[i]? = some bx[i] := by rw [hb3 i (Nat.le_refl i), List.getElem?_eq_getElem hi]
      have hyi : by'[i]? = some (by'[i]'(by omega)) := List.getElem?_eq_getElem (by omega)
      have hgy : getT (h.set x.loc b) y i = ok (by'[i]'(by omega)) := by
        by_cases hxy : y.loc = x.loc
        · rw [hxy] at hy
          have e : bx = by' := by rw [hx] at hy; exact Option.some.inj hy
          simp only [getT, hxy, rd_ok hgx, bind_ok]
          rw [rd_eq_ok, hbi]
          simp only [e]
        · have : (h.set x.loc b)[y.loc]? = some by' := by rw [List.getElem?_set_ne (Ne.symm hxy), hy]
          simp only [getT, rd_ok this, bind_ok]
          rw [rd_eq_ok, hyi]
      have hgxi : getT (h.set x.loc b) x i = ok bx[i] := by
        simp only [getT, rd_ok hgx, bind_ok]; rw [rd_eq_ok, hbi]
      refine ⟨(h.set x.loc b).set x.loc (b.set i (f bx[i] (by'[i]'(by omega)))), ?_, b.set i (f bx[i] (by'[i]'(by omega))), ?_, ?_, ?_, ?_⟩
      · simp only [hgxi, bind_ok, hgy]
        exact setT_ok hgx (by omega)
      · rw [List.set_set]
      · simpa using hb1
      · intro k u v hk hu hv
        by_cases e : k = i
        · subst e
          rw [List.getElem?_set_self (by omega)]
          rw [List.getElem?_eq_getElem hi] at hu
          rw [hyi] at hv
          simp only [Option.some.injEq] at hu hv
          rw [hu, hv]
        · rw [List.getElem?_set_ne (Ne.symm e)]
          exact hb2 k u v (by omega) hu hv
      · intro k hk
        rw [List.getElem?_set_ne (by omega)]
        exact hb3 k (by omega))
  refine ⟨b', ?_, h2, ?_⟩
  · simp only [zipInto, sizeT, rd_ok hx, bind_ok, pure_eq]
    exact h1
  · intro i u v hu hv
    exact h3 i u v (List.getElem?_eq_some_iff.mp hu).1 hu hv

/-- In-place map. -/
theorem mapT_spec {f : α → α} {h : Heap α} {x : Tn} {bx : List α} (hx : h[x.loc]? = some bx) :
    mapT f h x = ok (h.set x.loc (bx.map f)) := by
  have hxl : x.loc < h.length := (List.getElem?_eq_some_iff.mp hx).1
  obtain ⟨g, h1, b', rfl, h2, h3, _⟩ := loop_inv (n := bx.length)
    (body := fun i (h : Heap α) => do
      let a ← getT h x i
      setT h x i (f a)) (s := h)
    (fun i g => ∃ b : List α, g = h.set x.loc b ∧ b.length = bx.length ∧
      (∀ k u, k < i → bx[k]? = some u → b[k]? = some (f u)) ∧ ∀ k, i ≤ k → b[k]? = bx[k]?)
    ⟨bx, by rw [set_self_of_getElem? hx], rfl, fun k _ hk => absurd hk (by omega), fun _ _ => rfl⟩ (by
      rintro i g hi ⟨b, rfl, hb1, hb2, hb3⟩
      have hgx : (h.set x.loc b)[x.loc]? = some b := by rw [List.getElem?_set_self hxl]
      have hbi : b[i]? = some bx[i] := by rw [hb3 i (Nat.le_refl i), List.getElem?_eq_getElem hi]
      have hgxi : getT (h.set x.loc b) x i = ok bx[i] := by
        simp only [getT, rd_ok hgx, bind_ok]; rw [rd_eq_ok, hbi]
      refine ⟨(h.set x.loc b).set x.loc (b.set i (f bx[i])), ?_, b.set i (f bx[i]), ?_, ?_, ?_, ?_⟩
      · simp only [hgxi, bind_ok]
        exact setT_ok hgx (by omega)
      · rw [List.set_set]
      · simpa using hb1
      · intro k u hk hu
        by_cases e : k = i
        · subst e
          rw [List.getElem?_set_self (by omega)]
          rw [List.getElem?_eq_getElem hi] at hu
          simp only [Option.some.injEq] at hu
          rw [hu]
        · rw [List.getElem?_set_ne (Ne.symm e)]
          exact hb2 k u (by omega) hu
      · intro k hk
        rw [List.getElem?_set_ne (by omega)]
        exact hb3 k (by omega))
  have e : b' = bx.map f := by
    apply List.ext_getElem?
    intro k
    by_cases hk : k < bx.length
    · rw [h3 k bx[k] hk (List.getElem?_eq_getElem hk)]; simp [hk]
    · rw [List.getElem?_eq_none (by omega), List.getElem?_eq_none (by simpa using hk)]
  simp only [mapT, sizeT, rd_ok hx, bind_ok, pure_eq]
  rw [h1, e]

theorem sizeT_eq {h : Heap α} {t : Tn} {n : Nat} : sizeT h t = ok n ↔ (h[t.loc]?).map List.length = some n := by
  simp only [sizeT, bind_eq_ok, rd_eq_ok, pure_eq, ok.injEq, Option.map_eq_some_iff]

end Verif.Tensor
