import Verif.Alloc.Lemmas
import Verif.Vector.Spec
import Mathlib.Tactic.Ring
import Mathlib.Tactic.Linarith
import Mathlib.Data.List.Perm.Basic
/-!
# One vector among blocks held by others
-/
namespace Verif.Vector
open Verif Res

variable {w : Nat}

/-- The block of a vector that is not empty. -/
def blk (w : Nat) (v : Vec) : List Alloc.Block := if v.size = 0 then [] else [v.block w]

/-- The vector holds its block, the others hold `O`, and nothing else is held. -/
structure G (w : Nat) (a : Alloc.St) (v : Vec) (O : List Alloc.Block) : Prop where
  inv : Alloc.Inv a
  own : (blk w v ++ O).Perm a.owned

/-- The bytes of the blocks are unchanged. -/
def Keep (a a' : Alloc.St) (O : List Alloc.Block) : Prop :=
  ∀ b ∈ O, ∀ x, Alloc.Inside b x → a'.mem x = a.mem x

theorem Keep.refl (a : Alloc.St) (O : List Alloc.Block) : Keep a a O := fun _ _ _ _ => rfl
theorem Keep.trans {a b c : Alloc.St} {O : List Alloc.Block} (h : Keep a b O) (h' : Keep b c O) :
    Keep a c O := fun p hp x hx => (h' p hp x hx).trans (h p hp x hx)

/-- Element `j`. -/
def elem (w : Nat) (a : Alloc.St) (v : Vec) (j : Nat) : Elem w := fun k => a.mem (v.data + j * w + k.val)

/-- The vector has these elements. -/
def HasV (a : Alloc.St) (v : Vec) (l : List (Elem w)) : Prop :=
  v.size = l.length ∧ ∀ i (h : i < l.length), elem w a v i = l[i]

theorem owned_disjoint {a : Alloc.St} (h : Alloc.Inv a) : a.owned.Pairwise Alloc.Disjoint := by
  have hp : a.allocated.Pairwise Alloc.Disjoint := by
    have := (h.perm.pairwise_iff (fun h => Alloc.Disjoint.symm h)).mpr h.disj
    exact (List.pairwise_append.mp this).1
  exact (h.own.pairwise_iff (fun h => Alloc.Disjoint.symm h)).mpr hp

theorem G.mem {a : Alloc.St} {v : Vec} {O : List Alloc.Block} (h : G w a v O) (hv : v.size ≠ 0) :
    v.block w ∈ a.owned :=
  h.own.subset (by simp [blk, hv])

theorem G.disj {a : Alloc.St} {v : Vec} {O : List Alloc.Block} (h : G w a v O) (hv : v.size ≠ 0) :
    ∀ b ∈ O, Alloc.Disjoint (v.block w) b := by
  have := (h.own.pairwise_iff (fun h => Alloc.Disjoint.symm h)).mpr (owned_disjoint h.inv)
  rw [blk, if_neg hv] at this
  exact (List.pairwise_cons.mp this).1

/-- A byte of an element is a byte of the block. -/
theorem inside {v : Vec} {i : Nat} (h : i < v.size) {x : Nat}
    (h1 : v.data + i * w ≤ x) (h2 : x < v.data + i * w + w) : Alloc.Inside (v.block w) x := by
  have : (i + 1) * w ≤ v.size * w := Nat.mul_le_mul_right _ h
  rw [Nat.add_mul, Nat.one_mul] at this
  simp only [Alloc.Inside, Vec.block]
  omega

theorem elem_keep {a a' : Alloc.St} {u : Vec} {O : List Alloc.Block} (h : Keep a a' O)
    (hu : u.block w ∈ O) {j : Nat} (hj : j < u.size) : elem w a' u j = elem w a u j := by
  funext k
  exact h _ hu _ (inside hj (by omega) (by omega))

theorem HasV.keep {a a' : Alloc.St} {u : Vec} {O : List Alloc.Block} (h : Keep a a' O)
    (hu : u.size ≠ 0 → u.block w ∈ O) {l : List (Elem w)} (hl : HasV a u l) : HasV a' u l := by
  refine ⟨hl.1, fun i hi => ?_⟩
  have hi' : i < u.size := hl.1 ▸ hi
  rw [elem_keep h (hu (by omega)) hi']
  exact hl.2 i hi

theorem HasV.nil (a : Alloc.St) : HasV (w := w) a Vec.null [] :=
  ⟨rfl, fun i hi => absurd hi (Nat.not_lt_zero i)⟩

theorem clear_ok {a : Alloc.St} {v : Vec} {O : List Alloc.Block} (h : G w a v O) :
    ∃ a', clear w a v = ok (a', Vec.null) ∧ G w a' Vec.null O ∧ a'.mem = a.mem := by
  unfold clear
  by_cases hv : v.size = 0
  · rw [if_neg (by simpa using hv)]
    refine ⟨a, rfl, ⟨h.inv, ?_⟩, rfl⟩
    have := h.own
    rw [blk, if_pos hv] at this
    exact this
  · rw [if_pos hv, require_true (h.mem hv), bind_ok]
    refine ⟨_, rfl, ⟨h.inv.deallocate (h.mem hv), ?_⟩, rfl⟩
    have := h.own.erase (v.block w)
    simpa [blk, hv, Vec.null, Alloc.deallocate] using this

theorem resize_ok {E : Env} (hE : E.Fresh) (hw : 0 < w) {a : Alloc.St} {v : Vec}
    {O : List Alloc.Block} (h : G w a v O) (n : Nat) :
    ∃ a' v', resize w E a v n = ok (a', v') ∧ G w a' v' O ∧ Keep a a' O ∧ v'.size = n ∧
      (n = v.size → a' = a ∧ v' = v) ∧
      (n ≠ v.size → HasV a' v' (List.replicate n (fun _ : Fin w => 0))) := by
  unfold resize
  by_cases hn : n = v.size
  · rw [if_pos hn]
    exact ⟨a, v, rfl, h, Keep.refl _ _, hn.symm, fun _ => ⟨rfl, rfl⟩, fun h => absurd hn h⟩
  · rw [if_neg hn]
    obtain ⟨a1, e1, h1, m1⟩ := clear_ok h
    rw [e1, bind_ok]
    have k1 : Keep a a1 O := fun b _ x _ => by rw [m1]
    by_cases h0 : n = 0
    · subst h0
      refine ⟨a1, Vec.null, rfl, h1, k1, rfl, fun h => absurd h hn, fun _ => HasV.nil _⟩
    · simp only [if_pos h0]
      rcases h1.inv.allocate (pick := E.pick a1 (n * w)) (sys2 := none)
        (size := n * w) (by positivity) (hE a1 (n * w)) (fun h => by cases h) with
        ⟨hx, -⟩ | ⟨a2, p, e2, i2, o2, d2, -, z2, m2⟩
      · cases hx
      · simp only [e2, bind_ok]
        have hsz : (⟨n, p⟩ : Vec).size ≠ 0 := h0
        refine ⟨a2, ⟨n, p⟩, rfl, ⟨i2, ?_⟩, k1.trans ?_, rfl, fun h => absurd h hn, fun _ => ⟨by simp, ?_⟩⟩
        · rw [o2, blk, if_neg hsz]
          have := h1.own
          simp only [blk, Vec.null, if_true, List.nil_append] at this
          exact this.cons _
        · intro b hb x hx
          refine m2 x (fun hy => ?_)
          have hb' : b ∈ a1.owned := h1.own.subset (List.mem_append_right _ hb)
          have := d2 b hb'
          simp only [Alloc.Disjoint, Alloc.Inside] at this hx hy
          omega
        · intro i hi
          rw [List.length_replicate] at hi
          funext k
          simp only [List.getElem_replicate]
          exact z2 _ (inside (v := ⟨n, p⟩) hi (by omega) (by omega))

theorem write_ok {a : Alloc.St} {v : Vec} {O : List Alloc.Block} (h : G w a v O) {i : Nat}
    (hi : i < v.size) (e : Elem w) :
    ∃ a', writeElem w a v i e = ok a' ∧ G w a' v O ∧ Keep a a' O ∧
      (∀ j, elem w a' v j = if j = i then e else elem w a v j) := by
  unfold writeElem
  have hv : v.size ≠ 0 := by omega
  rw [require_true ⟨h.mem hv, hi⟩, bind_ok]
  refine ⟨_, rfl, ⟨⟨h.inv.perm, h.inv.own, h.inv.disj, h.inv.pos, h.inv.log, h.inv.rel⟩, h.own⟩, ?_, ?_⟩
  · intro b hb x hx
    show (if h : _ then _ else _) = _
    rw [dif_neg]
    intro hy
    have h1 := inside hi hy.1 hy.2
    have h2 := h.disj hv b hb
    simp only [Alloc.Disjoint, Alloc.Inside] at h1 h2 hx
    omega
  · intro j
    funext k
    show (if h : _ then _ else _) = _
    have hk := k.isLt
    by_cases hj : j = i
    · subst hj
      rw [dif_pos ⟨by omega, by omega⟩, if_pos rfl]
      congr 1
      exact Fin.ext (by simp)
    · rw [if_neg hj, dif_neg]
      · rfl
      · intro hy
        rcases Nat.lt_or_gt_of_ne hj with h1 | h1
        · have := Nat.mul_le_mul_right w h1
          rw [Nat.succ_mul] at this; omega
        · have := Nat.mul_le_mul_right w h1
          rw [Nat.succ_mul] at this; omega

/-- A loop that writes one element after the other. -/
theorem writes_ok {a : Alloc.St} {v : Vec} {O : List Alloc.Block} (h : G w a v O)
    (l : List (Elem w)) (hl : v.size = l.length) (src : Nat → Alloc.St → Res (Elem w))
    (hsrc : ∀ i (hi : i < l.length) a', G w a' v O → Keep a a' O →
      (∀ j, i ≤ j → elem w a' v j = elem w a v j) → src i a' = ok l[i]) :
    ∃ a', loop l.length (fun i a => do
        let e ← src i a
        writeElem w a v i e) a = ok a' ∧ G w a' v O ∧ Keep a a' O ∧ HasV a' v l := by
  obtain ⟨a', e, g, k, d, -⟩ := loop_inv (n := l.length) (s := a)
    (body := fun i a => do
        let e ← src i a
        writeElem w a v i e)
    (fun i a' => G w a' v O ∧ Keep a a' O ∧ (∀ j (h : j < l.length), j < i → elem w a' v j = l[j]) ∧
      (∀ j, i ≤ j → elem w a' v j = elem w a v j))
    ⟨h, Keep.refl _ _, fun _ _ h => absurd h (Nat.not_lt_zero _), fun _ _ => rfl⟩
    (by
      rintro i t hi ⟨g, k, d, r⟩
      obtain ⟨t', e', g', k', d'⟩ := write_ok g (hl ▸ hi : i < v.size) l[i]
      refine ⟨t', ?_, g', k.trans k', fun j hj hji => ?_, fun j hj => ?_⟩
      · simp only [hsrc i hi t g k r, bind_ok, e']
      · rw [d' j]
        by_cases hjj : j = i
        · subst hjj; rw [if_pos rfl]
        · rw [if_neg hjj]; exact d j hj (by omega)
      · rw [d' j, if_neg (by omega)]; exact r j (by omega))
  exact ⟨a', e, g, k, hl, fun i hi => d i hi hi⟩

theorem fill_ok {a : Alloc.St} {v : Vec} {O : List Alloc.Block} (h : G w a v O) (e : Elem w) :
    ∃ a', fill w a v e = ok a' ∧ G w a' v O ∧ Keep a a' O ∧ HasV a' v (List.replicate v.size e) := by
  obtain ⟨a', e1, r⟩ := writes_ok h (List.replicate v.size e) (by simp) (fun _ _ => ok e)
    (fun i hi _ _ _ _ => by simp)
  rw [List.length_replicate] at e1
  exact ⟨a', e1, r⟩

theorem copyList_ok {a : Alloc.St} {v : Vec} {O : List Alloc.Block} (h : G w a v O)
    (l : List (Elem w)) (hl : v.size = l.length) :
    ∃ a', copyList w a v l = ok a' ∧ G w a' v O ∧ Keep a a' O ∧ HasV a' v l :=
  writes_ok h l hl (fun i _ => rd l i) (fun _ hi _ _ _ _ => rd_ok (List.getElem?_eq_getElem hi))

theorem copyN_ok {a : Alloc.St} {v u : Vec} {O : List Alloc.Block} (h : G w a v O)
    (l : List (Elem w)) (hl : v.size = l.length) (hu : HasV a u l)
    (ho : u.size ≠ 0 → u.block w ∈ O ∨ u = v) :
    ∃ a', copyN w a v u = ok a' ∧ G w a' v O ∧ Keep a a' O ∧ HasV a' v l := by
  have := writes_ok h l hl (fun i a => readElem w a u i) (fun i hi a' g k r => by
    have hi' : i < u.size := hu.1 ▸ hi
    show readElem w a' u i = _
    unfold readElem
    rcases ho (by omega) with ho | ho
    · rw [require_true ⟨g.own.subset (List.mem_append_right _ ho), hi'⟩, bind_ok, ← hu.2 i hi,
        ← elem_keep k ho hi']
      rfl
    · subst ho
      rw [require_true ⟨g.mem (by omega), hi'⟩, bind_ok, ← hu.2 i hi, ← r i le_rfl]
      rfl)
  unfold copyN
  rw [hl]
  exact this

end Verif.Vector
