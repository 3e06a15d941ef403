import Verif.Image.Model
import Verif.Data.Reduce
import Verif.Release.Lemmas
import Mathlib.Algebra.Order.Floor.Ring
import Mathlib.Data.Rat.Floor
import Mathlib.Tactic.Linarith
import Mathlib.Tactic.FieldSimp
import Mathlib.Tactic.Positivity
import Mathlib.Tactic.NormNum

/-!
# C129: pictures in files
-/
namespace Verif.Image
open Verif Res

/-! ### specification -/

/-- Sample `c` of the pixel in column `x` and line `y` of a picture (include/utils/3rd_party/stb_image.h lines 148-154). -/
def Img.pixel (i : Img) (x y c : Nat) : Option Nat := i.bytes[(y * i.w + x) * i.ch + c]?

/-- A picture with all its bytes. -/
def Img.Valid (i : Img) : Prop := i.bytes.length = i.w * i.h * i.ch

/-- Element `[i][j][k]` of a tensor of rank 3. -/
def elem3 (t : Ten Nat) (i j k : Nat) : Option Nat := t.data[flat t.shape [i, j, k]]?

/-- Element `[i][j]` of a tensor of rank 2. -/
def elem2 (t : Ten Nat) (i j : Nat) : Option Nat := t.data[flat t.shape [i, j]]?

/-- The documented behaviour of the library for `.png`: a picture of 1 to 4 channels reads back as it was written. -/
def PngLossless (store : Store) : Prop := ∀ i : Img, i.Valid → 0 < i.w → 0 < i.h → 1 ≤ i.ch ∧ i.ch ≤ 4 → store .png i = some i

/-- Some library meets it. -/
example : PngLossless (fun _ i => some i) := fun _ _ _ _ _ => rfl

/-! ### copying -/

theorem copy_all {α : Type} (s d : List α) (h : s.length = d.length) : Data.copyTo s 0 s.length d 0 = ok s := by
  obtain ⟨o, h1, h2, h3⟩ := loop_inv (n := s.length) (body := fun i (o : List α) => do let x ← rd s (0 + i); wr o (0 + i) x) (s := d)
    (fun n o => o.length = s.length ∧ ∀ i, i < n → o[i]? = s[i]?) ⟨h.symm, fun i hi => by omega⟩ (by
      rintro i o hi ⟨ho, hv⟩
      refine ⟨o.set i s[i], ?_, by simpa using ho, fun j hj => ?_⟩
      · rw [rd_ok (v := s[i]) (by rw [Nat.zero_add]; exact List.getElem?_eq_getElem hi), bind_ok, Nat.zero_add, wr_ok (by omega)]
      · by_cases e : j = i
        · subst e; rw [List.getElem?_set_self (by omega), List.getElem?_eq_getElem hi]
        · rw [List.getElem?_set_ne (Ne.symm e), hv j (by omega)])
  unfold Data.copyTo
  rw [h1]
  congr 1
  apply List.ext_getElem?
  intro i
  by_cases hi : i < s.length
  · exact h3 i hi
  · rw [List.getElem?_eq_none (by omega), List.getElem?_eq_none (by omega)]

theorem imread_some {files : Files} {path : List Char} {i : Img} (h : files path = some i) (hv : i.Valid) :
    imread files path = ok ⟨[i.w, i.h, i.ch], i.bytes⟩ := by
  have hs : i.bytes.length = (List.replicate (size [i.w, i.h, i.ch]) 0).length := by
    rw [hv]; simp [Nat.mul_assoc]
  simp only [imread, h]
  rw [← hv, copy_all _ _ hs]; rfl

/-! ### names of files -/

theorem extension_some {p e : List Char} : extension p = some e ↔ ∃ a r, p = a ++ '.' :: r ∧ e = '.' :: r ∧ '.' ∉ r := by
  induction p with
  | nil => simp [extension]
  | cons c cs ih =>
    have hnone : extension cs = none ↔ '.' ∉ cs := by
      clear ih
      induction cs with
      | nil => simp [extension]
      | cons d ds ih =>
        simp only [extension, List.mem_cons, not_or]
        cases hx : extension ds with
        | some e => simp only [hx] at ih; simp at ih; simp [ih]
        | none =>
          simp only [hx, true_iff] at ih
          by_cases hd : d = '.'
          · simp [hd]
          · simp [hd, ih, Ne.symm hd]
    cases hx : extension cs with
    | some e' =>
      rw [hx] at ih
      simp only [extension, hx]
      rw [ih]
      constructor
      · rintro ⟨a, r, rfl, rfl, hr⟩
        exact ⟨c :: a, r, rfl, rfl, hr⟩
      · rintro ⟨a, r, h, rfl, hr⟩
        cases a with
        | nil =>
          injection h with h1 h2
          subst h2
          rw [hnone.mpr hr] at hx
          cases hx
        | cons b a =>
          injection h with h1 h2
          exact ⟨a, r, h2, rfl, hr⟩
    | none =>
      have hcs := hnone.mp hx
      simp only [extension, hx]
      by_cases hc : c = '.'
      · subst hc
        rw [if_pos rfl]
        constructor
        · intro h
          exact ⟨[], cs, rfl, (Option.some.inj h).symm, hcs⟩
        · rintro ⟨a, r, h, rfl, hr⟩
          cases a with
          | nil => injection h with h1 h2; rw [h2]
          | cons b a => injection h with h1 h2; exact absurd (by rw [h2]; simp) hcs
      · rw [if_neg hc]
        constructor
        · intro h; cases h
        · rintro ⟨a, r, h, rfl, hr⟩
          cases a with
          | nil => injection h with h1 h2; exact absurd h1 hc
          | cons b a => injection h with h1 h2; exact absurd (by rw [h2]; simp) hcs

theorem extension_none {p : List Char} : extension p = none ↔ '.' ∉ p := by
  constructor
  · intro h hc
    obtain ⟨a, r, hp, hr⟩ : ∃ a r, p = a ++ '.' :: r ∧ '.' ∉ r := by
      clear h
      induction p with
      | nil => simp at hc
      | cons c cs ih =>
        by_cases h' : '.' ∈ cs
        · obtain ⟨a, r, h1, h2⟩ := ih h'
          exact ⟨c :: a, r, by rw [h1]; rfl, h2⟩
        · rcases List.mem_cons.mp hc with e | e
          · exact ⟨[], cs, by rw [e]; rfl, h'⟩
          · exact absurd e h'
    rw [extension_some.mpr ⟨a, r, hp, rfl, hr⟩] at h
    cases h
  · intro h
    cases hx : extension p with
    | none => rfl
    | some e =>
      obtain ⟨a, r, hp, -⟩ := extension_some.mp hx
      exact absurd (by rw [hp]; simp) h

/-- C129, which file and which format: a name `a.r` with one of the known endings is written in that format under that name, and with any other ending (after the last
dot) as `.png` under the name with `.png` appended. -/
theorem target_format (a r : List Char) (hr : '.' ∉ r) : extension (a ++ '.' :: r) = some ('.' :: r) ∧
    (r = ['p', 'n', 'g'] → target (a ++ '.' :: r) ('.' :: r) = (.png, a ++ '.' :: r)) ∧
    (r = ['b', 'm', 'p'] → target (a ++ '.' :: r) ('.' :: r) = (.bmp, a ++ '.' :: r)) ∧
    (r = ['t', 'g', 'a'] → target (a ++ '.' :: r) ('.' :: r) = (.tga, a ++ '.' :: r)) ∧
    (r = ['j', 'p', 'g'] ∨ r = ['j', 'p', 'e', 'g'] → target (a ++ '.' :: r) ('.' :: r) = (.jpg, a ++ '.' :: r)) ∧
    (r = ['h', 'd', 'r'] → target (a ++ '.' :: r) ('.' :: r) = (.hdr, a ++ '.' :: r)) ∧
    (r ∉ [['p', 'n', 'g'], ['b', 'm', 'p'], ['t', 'g', 'a'], ['j', 'p', 'g'], ['j', 'p', 'e', 'g'], ['h', 'd', 'r']] →
      target (a ++ '.' :: r) ('.' :: r) = (.png, a ++ '.' :: r ++ ['.', 'p', 'n', 'g'])) := by
  refine ⟨extension_some.mpr ⟨a, r, rfl, rfl, hr⟩, ?_, ?_, ?_, ?_, ?_, ?_⟩
  · rintro rfl; simp [target]
  · rintro rfl; simp [target]
  · rintro rfl; simp [target]
  · rintro (rfl | rfl) <;> simp [target]
  · rintro rfl; simp [target]
  · intro h
    simp only [List.mem_cons, List.not_mem_nil, or_false, not_or] at h
    simp [target, h]

/-- C129 fails for names without a dot: nothing is written, the call ends in an exception (the branch that would add `.png` is never reached). -/
theorem no_dot_violated (store : Store) (files : Files) (path : List Char) (t : Ten Nat) (h : '.' ∉ path) : ∀ r, directImwrite store files path t ≠ ok r := by
  intro r hr
  simp only [directImwrite, extension_none.mpr h] at hr
  split at hr <;> simp only [bind_eq_ok] at hr <;> obtain ⟨_, _, _, _, _, _, _, _, _, _, hr⟩ := hr <;> cases hr

example : directImwrite (fun _ i => some i) (fun _ => none) ['a'] ⟨[1, 1], [7]⟩ = abort := by
  have h : extension ['a'] = none := rfl
  simp [directImwrite, rd, h]

/-! ### what is written -/

theorem direct_2 {store : Store} {files : Files} {path ext : List Char} {w h : Nat} {d : List Nat} (he : extension path = some ext) :
    directImwrite store files path ⟨[w, h], d⟩ = writeAs store files (target path ext).2 (target path ext).1 w h 1 d := by
  obtain ⟨a, r, -, rfl, -⟩ := extension_some.mp he
  simp [directImwrite, rd, he]

theorem direct_3 {store : Store} {files : Files} {path ext : List Char} {w h ch : Nat} {d : List Nat} (he : extension path = some ext) :
    directImwrite store files path ⟨[w, h, ch], d⟩ =
      if ch = 1 ∨ ch = 3 ∨ ch = 4 then writeAs store files (target path ext).2 (target path ext).1 w h ch d else abort := by
  obtain ⟨a, r, -, rfl, -⟩ := extension_some.mp he
  by_cases hc : ch = 1 ∨ ch = 3 ∨ ch = 4
  · simp [directImwrite, rd, he, hc]
  · simp [directImwrite, rd, hc]

theorem writeAs_png {store : Store} (hs : PngLossless store) {files : Files} {path : List Char} {w h ch : Nat} {d : List Nat} (hd : d.length = w * h * ch)
    (hw : 0 < w) (hh : 0 < h) (hc : 1 ≤ ch ∧ ch ≤ 4) :
    writeAs store files path .png w h ch d = ok (true, fun p => if p = path then some ⟨w, h, ch, d⟩ else files p) := by
  have ht : d.take (needed .png w h ch) = d := List.take_of_length_le (by simp [needed, hd])
  rw [writeAs, require_true (by simp [needed, hd]), bind_ok, ht, hs ⟨w, h, ch, d⟩ hd hw hh hc]
  rfl

/-- C129: the result is `true` exactly if the library could store the picture; if it could not, no file has changed. -/
theorem write_reported (store : Store) (files : Files) (path ext : List Char) (he : extension path = some ext) (w h ch : Nat) (d : List Nat) (hc : ch = 1 ∨ ch = 3 ∨ ch = 4)
    (hd : needed (target path ext).1 w h ch ≤ d.length) :
    ∃ b files', directImwrite store files path ⟨[w, h, ch], d⟩ = ok (b, files') ∧
      (b = true ↔ ∃ i, store (target path ext).1 ⟨w, h, ch, d.take (needed (target path ext).1 w h ch)⟩ = some i) ∧ (b = false → files' = files) := by
  rw [direct_3 he, if_pos hc, writeAs, require_true hd, bind_ok]
  cases store (target path ext).1 ⟨w, h, ch, d.take (needed (target path ext).1 w h ch)⟩ with
  | none => exact ⟨false, files, rfl, by simp, fun _ => rfl⟩
  | some i => exact ⟨true, _, rfl, by simp, by simp⟩

/-- A disk that is full. -/
example : ∃ b files', directImwrite (fun _ _ => none) (fun _ => none) ['a', '.', 'p', 'n', 'g'] ⟨[1, 1, 1], [7]⟩ = ok (b, files') ∧ b = false := by
  obtain ⟨b, f, h1, h2, _⟩ := write_reported (fun _ _ => none) (fun _ => none) ['a', '.', 'p', 'n', 'g'] ['.', 'p', 'n', 'g'] rfl 1 1 1 [7] (Or.inl rfl) (by simp [target, needed])
  exact ⟨b, f, h1, by cases b <;> simp_all⟩

/-- C129 for files that are read and written again as `.png`: the new file holds the picture of the old one - width, height, channels and all pixels - and no other file
changes.  Missing: pictures of two channels. -/
theorem read_write_partial (store : Store) (hs : PngLossless store) (files : Files) (src a : List Char) (i : Img) (hi : files src = some i) (hv : i.Valid)
    (hw : 0 < i.w) (hh : 0 < i.h) (hc : i.ch = 1 ∨ i.ch = 3 ∨ i.ch = 4) :
    ∃ t files', imread files src = ok t ∧ directImwrite store files (a ++ ['.', 'p', 'n', 'g']) t = ok (true, files') ∧
      files' (a ++ ['.', 'p', 'n', 'g']) = some i ∧ ∀ p, p ≠ a ++ ['.', 'p', 'n', 'g'] → files' p = files p := by
  have he := (target_format a ['p', 'n', 'g'] (by decide)).1
  refine ⟨_, fun p => if p = a ++ ['.', 'p', 'n', 'g'] then some i else files p, imread_some hi hv, ?_, if_pos rfl, fun p hp => if_neg hp⟩
  have htg := (target_format a ['p', 'n', 'g'] (by decide)).2.1 rfl
  rw [direct_3 he, if_pos hc, htg]
  exact writeAs_png hs hv hw hh (by omega)

/-- C129 fails for pictures of two channels (grey with transparency): what was read cannot be written. -/
theorem two_channels_violated (store : Store) (files : Files) (src path : List Char) (i : Img) (hi : files src = some i) (hv : i.Valid) (hc : i.ch = 2) :
    ∃ t, imread files src = ok t ∧ directImwrite store files path t = abort := by
  refine ⟨_, imread_some hi hv, ?_⟩
  simp [directImwrite, rd, hc]

/-- C129 for tensors of bytes that are written as `.png` and read again: the same tensor, a matrix with one channel more. -/
theorem write_read (store : Store) (hs : PngLossless store) (files : Files) (a : List Char) (w h ch : Nat) (d : List Nat) (hd : d.length = w * h * ch)
    (hw : 0 < w) (hh : 0 < h) (hc : ch = 1 ∨ ch = 3 ∨ ch = 4) :
    (∃ files', directImwrite store files (a ++ ['.', 'p', 'n', 'g']) ⟨[w, h, ch], d⟩ = ok (true, files') ∧
      imread files' (a ++ ['.', 'p', 'n', 'g']) = ok ⟨[w, h, ch], d⟩) ∧
    (ch = 1 → ∃ files', directImwrite store files (a ++ ['.', 'p', 'n', 'g']) ⟨[w, h], d⟩ = ok (true, files') ∧
      imread files' (a ++ ['.', 'p', 'n', 'g']) = ok ⟨[w, h, 1], d⟩) := by
  have he := (target_format a ['p', 'n', 'g'] (by decide)).1
  have htg := (target_format a ['p', 'n', 'g'] (by decide)).2.1 rfl
  constructor
  · refine ⟨fun p => if p = a ++ ['.', 'p', 'n', 'g'] then some ⟨w, h, ch, d⟩ else files p, ?_, ?_⟩
    · rw [direct_3 he, if_pos hc, htg]
      exact writeAs_png hs hd hw hh (by omega)
    · exact imread_some (i := ⟨w, h, ch, d⟩) (if_pos rfl) hd
  · rintro rfl
    refine ⟨fun p => if p = a ++ ['.', 'p', 'n', 'g'] then some ⟨w, h, 1, d⟩ else files p, ?_, ?_⟩
    · rw [direct_2 he, htg]
      exact writeAs_png hs hd hw hh (by omega)
    · exact imread_some (i := ⟨w, h, 1, d⟩) (if_pos rfl) hd

/-- C129 fails for `.hdr`: the bytes of the tensor are taken for numbers of four bytes each, and the writer reads beyond them. -/
theorem hdr_violated (store : Store) (files : Files) (a : List Char) (w h ch : Nat) (d : List Nat) (hd : d.length = w * h * ch) (hw : 0 < w) (hh : 0 < h)
    (hc : ch = 1 ∨ ch = 3 ∨ ch = 4) : directImwrite store files (a ++ ['.', 'h', 'd', 'r']) ⟨[w, h, ch], d⟩ = ub := by
  have he := (target_format a ['h', 'd', 'r'] (by decide)).1
  have htg := (target_format a ['h', 'd', 'r'] (by decide)).2.2.2.2.2.1 rfl
  rw [direct_3 he, if_pos hc, htg]
  have : 0 < w * h * ch := Nat.mul_pos (Nat.mul_pos hw hh) (by omega)
  have hn : ¬ needed .hdr w h ch ≤ d.length := by simp only [needed]; omega
  rw [writeAs, require_false hn]
  rfl

/-! ### which element is which pixel -/

/-- Of the tensor of a file, element `[i][j][c]` is the sample at position `i * h + j` of the picture, so element `[y][x][c]` is pixel `(x, y)` for square pictures.
Missing: all others. -/
theorem square_pixels_partial (files : Files) (src : List Char) (i : Img) (hi : files src = some i) (hv : i.Valid) (hsq : i.w = i.h) :
    ∃ t, imread files src = ok t ∧ t.shape = [i.w, i.h, i.ch] ∧ ∀ x y c, elem3 t y x c = i.pixel x y c := by
  refine ⟨_, imread_some hi hv, rfl, fun x y c => ?_⟩
  simp only [elem3, Img.pixel, flat_cons, flat_nil, size_cons, size_nil, hsq]
  congr 1
  ring

/-- C129 fails for pictures that are not square: the shape of the tensor is width by height, but its elements are the lines of the picture one after the other.  For
every width and height there is a picture whose pixel `(0, 1)` is neither element `[0][1]` nor element `[1][0]` of its tensor. -/
theorem pixel_order_violated (w h : Nat) (hw : 2 ≤ w) (hh : 2 ≤ h) (hne : w ≠ h) (files : Files) (src : List Char) :
    ∃ i : Img, i.Valid ∧ i.w = w ∧ i.h = h ∧ i.ch = 1 ∧ ∃ t, imread (fun p => if p = src then some i else files p) src = ok t ∧ t.shape = [w, h, 1] ∧
      elem3 t 0 1 0 ≠ i.pixel 0 1 0 ∧ elem3 t 1 0 0 ≠ i.pixel 0 1 0 := by
  have hwh : w < w * h := by
    have := Nat.mul_lt_mul_of_pos_left (show 1 < h by omega) (show 0 < w by omega)
    omega
  let i : Img := ⟨w, h, 1, (List.replicate (w * h) 0).set w 255⟩
  have hv : i.Valid := by simp [Img.Valid, i]
  refine ⟨i, hv, rfl, rfl, rfl, _, imread_some (if_pos rfl) hv, rfl, ?_, ?_⟩
  · simp only [elem3, Img.pixel, i, flat_cons, flat_nil, size_cons, size_nil]
    rw [show (1 * w + 0) * 1 + 0 = w by omega, List.getElem?_set_self (by simpa using hwh), List.getElem?_set_ne (by omega)]
    rw [List.getElem?_replicate]
    split <;> simp
  · simp only [elem3, Img.pixel, i, flat_cons, flat_nil, size_cons, size_nil]
    rw [show (1 * w + 0) * 1 + 0 = w by omega, List.getElem?_set_self (by simpa using hwh), List.getElem?_set_ne (by omega)]
    rw [List.getElem?_replicate]
    split <;> simp

/-- The same in writing: a matrix of `a` rows and `b` columns, `a ≠ b`, is written as a picture `a` wide and `b` high in which line 1 does not begin with the first
element of row 1, nor with the second element of row 0. -/
theorem matrix_order_violated (store : Store) (hs : PngLossless store) (a b : Nat) (ha : 2 ≤ a) (hb : 2 ≤ b) (hne : a ≠ b) (files : Files) (path : List Char) :
    ∃ (t : Ten Nat) (i : Img) (files' : Files), t.shape = [a, b] ∧ t.data.length = size t.shape ∧
      directImwrite store files (path ++ ['.', 'p', 'n', 'g']) t = ok (true, files') ∧
      files' (path ++ ['.', 'p', 'n', 'g']) = some i ∧ i.w = a ∧ i.h = b ∧ i.pixel 0 1 0 ≠ elem2 t 1 0 ∧ i.pixel 0 1 0 ≠ elem2 t 0 1 := by
  have hab : a < a * b := by
    have := Nat.mul_lt_mul_of_pos_left (show 1 < b by omega) (show 0 < a by omega)
    omega
  have he := (target_format path ['p', 'n', 'g'] (by decide)).1
  have htg := (target_format path ['p', 'n', 'g'] (by decide)).2.1 rfl
  refine ⟨⟨[a, b], (List.replicate (a * b) 0).set a 255⟩, ⟨a, b, 1, (List.replicate (a * b) 0).set a 255⟩,
    fun p => if p = path ++ ['.', 'p', 'n', 'g'] then some ⟨a, b, 1, (List.replicate (a * b) 0).set a 255⟩ else files p, rfl, by simp, ?_, if_pos rfl, rfl, rfl, ?_, ?_⟩
  · rw [direct_2 he, htg]
    exact writeAs_png hs (by simp) (by omega) (by omega) (by omega)
  · simp only [elem2, Img.pixel, flat_cons, flat_nil, size_cons, size_nil]
    rw [show (1 * a + 0) * 1 + 0 = a by omega, List.getElem?_set_self (by simpa using hab), List.getElem?_set_ne (by omega), List.getElem?_replicate]
    split <;> simp
  · simp only [elem2, Img.pixel, flat_cons, flat_nil, size_cons, size_nil]
    rw [show (1 * a + 0) * 1 + 0 = a by omega, List.getElem?_set_self (by simpa using hab), List.getElem?_set_ne (by omega), List.getElem?_replicate]
    split <;> simp

/-! ### resizing -/

/-- Resizing pictures of rank 3: the tensor of the new shape with the resized picture. -/
theorem resize_partial (rs : Resizer) (w h ch ow oh : Nat) (d : List Nat)
    (hd : d.length = w * h * ch) : imresize rs ⟨[w, h, ch], d⟩ [ow, oh, ch] = ok ⟨[ow, oh, ch], rs w h ow oh ch d⟩ := by
  have hd' : d.length = w * (h * ch) := by rw [hd, Nat.mul_assoc]
  have ht : d.take (w * (h * ch)) = d := List.take_of_length_le (by omega)
  simp [imresize, rd, resizeCall, Nat.mul_assoc, hd', ht]

/-- C129 fails for pictures of rank 2: they are resized as if each pixel had two bytes, beyond the storage of the picture. -/
theorem resize_gray_violated (rs : Resizer) (w h ow oh : Nat) (d : List Nat) (hd : d.length = w * h) (hw : 0 < w) (hh : 0 < h) :
    imresize rs ⟨[w, h], d⟩ [ow, oh] = ub := by
  have : 0 < w * h := Nat.mul_pos hw hh
  simp only [imresize, List.length_cons, List.length_nil, rd, List.getElem?_cons_zero, List.getElem?_cons_succ, bind_ok, resizeCall]
  rw [if_neg (by omega), require_false (by omega)]
  rfl

example : imresize (fun _ _ ow oh ch _ => List.replicate (ow * oh * ch) 9) ⟨[2, 1, 3], [1, 2, 3, 4, 5, 6]⟩ [1, 1, 3] = ok ⟨[1, 1, 3], [9, 9, 9]⟩ := by decide

end Verif.Image
