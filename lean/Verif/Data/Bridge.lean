import Verif.Data.Flip
import Verif.Gemm.Props
/-!
# The by-value tensors of `Verif.Data` agree with the heap tensors of `Verif.Tensor`

`reshape` and `resize` are modelled twice: on the heap of shared storages (`Verif.Tensor`) and, for functions that only touch
a storage of their own, by value (`Verif.Data`).  These theorems connect the two.
-/
namespace Verif.Data
open Verif Res Tensor

variable {α : Type}

/-- The by-value tensor an object denotes in a heap. -/
def denote (h : Heap α) (t : Tn) : Option (Ten α) := (h[t.loc]?).map (fun d => ⟨t.shape, d⟩)

theorem denote_set {h : Heap α} {t : Tn} {b : List α} (hb : h[t.loc]? = some b) (s : List Nat) (d : List α) :
    denote (h.set t.loc d) ⟨s, t.loc⟩ = some ⟨s, d⟩ := by
  have := (List.getElem?_eq_some_iff.mp hb).1
  simp [denote, this]

/-- `resize` on the heap is `resizeV` on the value. -/
theorem resize_denotes [Zero α] (h : Heap α) (t : Tn) (v : Ten α) (hv : denote h t = some v) (s : List Nat) :
    ∃ t' h', Tensor.resize h t s = ok (t', h') ∧ denote h' t' = some (resizeV v s) := by
  simp only [denote, Option.map_eq_some_iff] at hv
  obtain ⟨b, hb, rfl⟩ := hv
  refine ⟨_, _, resize_ok hb s, ?_⟩
  rw [denote_set hb, resizeV]
  by_cases e : b.length = size s
  · simp [vecResize, e]
  · simp [vecResize, e, Ne.symm e]

/-- `reshape` on the heap is `reshapeV` on the value: the same outcome, and the same tensor when it returns. -/
theorem reshape_denotes [Zero α] (h : Heap α) (t : Tn) (v : Ten α) (hv : denote h t = some v) (s : List Nat) :
    (∀ u, reshapeV v s = ok u → ∃ t' h', Tensor.reshape h t s = ok (t', h') ∧ denote h' t' = some u) ∧
    (reshapeV v s = ub → Tensor.reshape h t s = ub) ∧ reshapeV v s ≠ abort := by
  simp only [denote, Option.map_eq_some_iff] at hv
  obtain ⟨b, hb, rfl⟩ := hv
  have key : ∀ s' : List Nat, ∃ t' h', (if b.length ≠ size s' then Tensor.resize h t s' else ok (⟨s', t.loc⟩, h)) = ok (t', h') ∧
      denote h' t' = some (if b.length ≠ size s' then ⟨s', List.replicate (size s') 0⟩ else ⟨s', b⟩) := by
    intro s'
    by_cases e : b.length = size s'
    · refine ⟨⟨s', t.loc⟩, h, by rw [if_neg (by simpa using e)], ?_⟩
      rw [if_neg (by simpa using e)]; simp [denote, hb]
    · refine ⟨⟨s', t.loc⟩, h.set t.loc (vecResize b (size s')), by rw [if_pos e]; exact resize_ok hb s', ?_⟩
      rw [if_pos e, denote_set hb]; simp [vecResize, Ne.symm e]
  have hR : ∀ s' : List Nat, (if b.length ≠ size s' then (pure ⟨s', List.replicate (size s') 0⟩ : Res (Ten α)) else pure ⟨s', b⟩) =
      ok (if b.length ≠ size s' then ⟨s', List.replicate (size s') 0⟩ else ⟨s', b⟩) := by
    intro s'; split <;> rfl
  unfold reshapeV Tensor.reshape
  simp only [rd_ok hb, bind_ok, pure_eq, show Tensor.minusOne = Data.minusOne from rfl] at hR ⊢
  by_cases h0 : s = []
  · rw [require_false (by simpa using h0)]
    refine ⟨fun u hu => ?_, fun _ => rfl, fun hu => ?_⟩ <;> simp at hu
  · rw [require_true h0, bind_ok]
    by_cases h1 : s.getLast? = some Data.minusOne
    · rw [if_pos h1]
      by_cases h2 : size s.dropLast = 0
      · rw [require_false (by simpa using h2)]
        refine ⟨fun u hu => ?_, fun _ => by simp [h1], fun hu => ?_⟩ <;> simp at hu
      · rw [require_true h2, bind_ok, hR]
        refine ⟨fun u hu => ?_, fun hu => by simp at hu, by simp⟩
        obtain ⟨t', h', q1, q2⟩ := key (s.dropLast ++ [b.length / size s.dropLast])
        injection hu with hu
        exact ⟨t', h', by rw [bind_ok, if_pos h1]; exact q1, by rw [q2, hu]⟩
    · rw [if_neg h1, hR]
      refine ⟨fun u hu => ?_, fun hu => by simp at hu, by simp⟩
      obtain ⟨t', h', q1, q2⟩ := key s
      injection hu with hu
      exact ⟨t', h', by rw [bind_ok, if_neg h1]; exact q1, by rw [q2, hu]⟩

example : denote [[1, 2, 3, (4 : Int)]] ⟨[4], 0⟩ = some ⟨[4], [1, 2, 3, 4]⟩ ∧ reshapeV ⟨[4], [1, 2, 3, (4 : Int)]⟩ [2, minusOne] = ok ⟨[2, 2], [1, 2, 3, 4]⟩ := by
  decide

end Verif.Data
