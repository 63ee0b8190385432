import Verif.Lemmas.Bytes
/-! # C06, C07, C08: bytes, binary files, HDR layout -/
namespace Verif.Bytes
open Verif.Py

/-- A proper array of a dtype: as many elements as the shape says, each a bit pattern of the item size. -/
def Spec.Proper (d : Dtype) (a : Arr) : Prop := size a.shape = a.data.length ∧ ∀ n ∈ a.data, n < 256 ^ d.itemsize

/-- C06. Writing an array to bytes and reading it back with its shape gives the array, for any item size, byte order,
shape and content. -/
theorem C06_round_trip (d : Dtype) (hd : 0 < d.itemsize) (a : Arr) (ha : Spec.Proper d a) :
    bytes2np d (np2bytes d a) (a.shape.map Int.ofNat) = .ok a := by
  unfold bytes2np np2bytes
  rw [frombuffer_enc d hd a.data ha.2]
  simp only
  rw [resolve_nat a.data.length a.shape ha.1]

/-- C06. The byte string has `size * itemsize` bytes. -/
theorem C06_length (d : Dtype) (a : Arr) (ha : Spec.Proper d a) :
    (np2bytes d a).length = size a.shape * d.itemsize := by
  rw [np2bytes, length_flatMap_enc, ha.1]

/-- C06. One dimension may be left to be inferred (-1): if the other dimensions are nonzero the missing one is recovered. -/
theorem C06_inferred_dimension (d : Dtype) (hd : 0 < d.itemsize) (k : Nat) (s : List Nat) (hs : size s ≠ 0)
    (data : List Nat) (ha : Spec.Proper d ⟨k :: s, data⟩) :
    bytes2np d (np2bytes d ⟨k :: s, data⟩) (-1 :: s.map Int.ofNat) = .ok ⟨k :: s, data⟩ := by
  unfold bytes2np np2bytes
  rw [frombuffer_enc d hd data ha.2]
  have hsz : data.length = k * size s := by rw [← ha.1]; simp [size]
  have h1 : (-1 :: s.map Int.ofNat).filter (fun x => decide (0 ≤ x)) = s.map Int.ofNat := by
    rw [List.filter_cons_of_neg (by decide)]
    rw [List.filter_eq_self.2]
    intro x hx
    simp only [List.mem_map] at hx
    obtain ⟨n, -, rfl⟩ := hx
    simp
  have h2 : (-1 :: s.map Int.ofNat).filter (fun x => decide (x < 0)) = [-1] := by
    rw [List.filter_cons_of_pos (by decide)]
    congr 1
    rw [List.filter_eq_nil_iff]
    intro x hx
    simp only [List.mem_map] at hx
    obtain ⟨n, -, rfl⟩ := hx
    simp
  have h3 : (s.map Int.ofNat).map Int.toNat = s := by simp [List.map_map, Function.comp_def]
  unfold resolveShape
  simp only [h1, h2, h3, List.length_singleton, hsz, Nat.mul_mod_left, ne_eq, not_true_eq_false, or_false, hs,
    if_false]
  rw [Nat.mul_div_cancel _ (Nat.pos_of_ne_zero hs)]
  have h4 : ∀ n : Nat, ¬ ((n : Int) < 0) := fun n => by omega
  simp [List.map_map, Function.comp_def, h4]

/-- C06. A shape (without -1) with another number of elements is rejected with ValueError. -/
theorem C06_wrong_size_rejected (d : Dtype) (hd : 0 < d.itemsize) (a : Arr) (ha : Spec.Proper d a) (s : List Nat)
    (hs : size s ≠ size a.shape) : bytes2np d (np2bytes d a) (s.map Int.ofNat) = .error .ValueError := by
  unfold bytes2np np2bytes
  rw [frombuffer_enc d hd a.data ha.2]
  have h1 : (s.map Int.ofNat).filter (fun x => decide (0 ≤ x)) = s.map Int.ofNat := by simp
  have h2 : (s.map Int.ofNat).filter (fun x => decide (x < 0)) = [] := by simp
  have h3 : (s.map Int.ofNat).map Int.toNat = s := by simp [List.map_map, Function.comp_def]
  have : size s ≠ a.data.length := by rw [← ha.1]; exact hs
  unfold resolveShape
  simp [h1, h2, h3, this]

/-- C06. A truncated byte string (length not a multiple of the item size) is rejected whatever the shape. -/
theorem C06_truncated_rejected (d : Dtype) (buf : List Nat) (h : buf.length % d.itemsize ≠ 0) (s : List Int) :
    bytes2np d buf s = .error .ValueError := by
  simp [bytes2np, frombuffer, h]

example : Spec.Proper ⟨2, true⟩ ⟨[2, 1], [258, 65535]⟩ := by
  refine ⟨rfl, ?_⟩; simp
example : np2bytes ⟨2, true⟩ ⟨[2, 1], [258, 65535]⟩ = [1, 2, 255, 255] := by decide
example : bytes2np ⟨2, true⟩ [1, 2, 255, 255] [-1, 1] = .ok ⟨[2, 1], [258, 65535]⟩ := by rfl

/-- Specification: the arrays a file holds after a history: everything since (and including) the last truncating write. -/
def Spec.held : List (Arr × Mode) → List Arr
  | h => h.foldl (fun acc w => match w.2 with
    | .wb => [w.1]
    | .ab => acc ++ [w.1]) []

theorem writes_held (d : Dtype) (h : List (Arr × Mode)) (acc : List Arr) (file : Option (List Nat))
    (hf : file.getD [] = (acc.flatMap (·.data)).flatMap (encItem d)) :
    (writes d file h).getD [] = ((h.foldl (fun acc w => match w.2 with
      | .wb => [w.1]
      | .ab => acc ++ [w.1]) acc).flatMap (·.data)).flatMap (encItem d) := by
  induction h generalizing acc file with
  | nil => simpa [writes] using hf
  | cons w h ih =>
    obtain ⟨a, m⟩ := w
    simp only [writes, List.foldl_cons] at ih ⊢
    cases m with
    | wb => exact ih [a] _ (by simp [np2bytefile, np2bytes])
    | ab => exact ih (acc ++ [a]) _ (by simp [np2bytefile, np2bytes, hf])

theorem resolve_rows (k n : Nat) (hk : 0 < k) :
    resolveShape (n * k) [-1, (k : Int)] = .ok [n, k] := by
  have hk' : ((k : Int) < 0) = False := by simp
  have hk2 : (0 ≤ (k : Int)) = True := by simp
  simp [resolveShape, size, hk', hk2, Nat.pos_iff_ne_zero.1 hk, Nat.mul_div_cancel _ hk]

/-- C07. After any history of truncating and appending writes of `(n_i, k)` arrays to a new file, reading it with shape `(-1, k)` gives all rows written since the last truncation, in writing
order. -/
theorem C07_file_accumulates (d : Dtype) (hd : 0 < d.itemsize) (k : Nat) (hk : 0 < k) (h : List (Arr × Mode))
    (hp : ∀ w ∈ h, Spec.Proper d w.1 ∧ ∃ n, w.1.shape = [n, k]) :
    ∃ n, bytes2np d ((writes d none h).getD []) [-1, (k : Int)] =
      .ok ⟨[n, k], (Spec.held h).flatMap (·.data)⟩ := by
  rw [writes_held d h [] none (by simp)]
  change ∃ n, bytes2np d (((Spec.held h).flatMap (·.data)).flatMap (encItem d)) [-1, (k : Int)] = _
  have hmem : ∀ (h : List (Arr × Mode)) (acc : List Arr) (P : Arr → Prop), (∀ a ∈ acc, P a) → (∀ w ∈ h, P w.1) →
      ∀ a ∈ (h.foldl (fun acc w => match w.2 with
        | .wb => [w.1]
        | .ab => acc ++ [w.1]) acc), P a := by
    intro h
    induction h with
    | nil => intro acc P h1 _; simpa using h1
    | cons w h ih =>
      intro acc P h1 h2
      obtain ⟨b, m⟩ := w
      simp only [List.foldl_cons]
      cases m with
      | wb => exact ih [b] P (by simpa using h2 (b, .wb) (by simp)) (fun w hw => h2 w (by simp [hw]))
      | ab =>
        refine ih (acc ++ [b]) P ?_ (fun w hw => h2 w (by simp [hw]))
        intro a ha
        rcases List.mem_append.1 ha with ha | ha
        · exact h1 a ha
        · simp at ha; subst ha; exact h2 (a, .ab) (by simp)
  have hall := hmem h [] (fun a => Spec.Proper d a ∧ ∃ n, a.shape = [n, k]) (by simp) hp
  change ∀ a ∈ Spec.held h, _ at hall
  have hlen : ∀ l : List Arr, (∀ a ∈ l, Spec.Proper d a ∧ ∃ n, a.shape = [n, k]) →
      ∃ n, (l.flatMap (·.data)).length = n * k := by
    intro l
    induction l with
    | nil => intro _; exact ⟨0, by simp⟩
    | cons a l ih =>
      intro hl
      obtain ⟨n, hn⟩ := ih (fun a ha => hl a (by simp [ha]))
      obtain ⟨⟨h1, -⟩, m, hm⟩ := hl a (by simp)
      refine ⟨m + n, ?_⟩
      rw [List.flatMap_cons, List.length_append, hn, ← h1, hm]
      simp [size]; ring
  obtain ⟨n, hn⟩ := hlen _ hall
  refine ⟨n, ?_⟩
  have hlt : ∀ x ∈ (Spec.held h).flatMap (·.data), x < 256 ^ d.itemsize := by
    intro x hx
    obtain ⟨a, ha, hxa⟩ := List.mem_flatMap.1 hx
    exact (hall a ha).1.2 x hxa
  unfold bytes2np
  rw [frombuffer_enc d hd _ hlt]
  simp only [hn, resolve_rows k n hk]

example : bytes2np ⟨1, false⟩ ((writes ⟨1, false⟩ none
    [(⟨[1, 2], [1, 2]⟩, .wb), (⟨[1, 2], [3, 4]⟩, .wb), (⟨[2, 2], [5, 6, 7, 8]⟩, .ab)]).getD []) [-1, 2] =
    .ok ⟨[3, 2], [3, 4, 5, 6, 7, 8]⟩ := by rfl

/-- python and pvalue agree on the format of a float -/
theorem pv_f32 : pvFloat = f32 := by decide

/-- C08. Writing a 2d array to an HDR file and reading it back: same shape, same value at every position. -/
theorem C08_grey_round_trip (W H : Nat) (ar : Nat → Nat → Nat) (har : ∀ x < W, ∀ y < H, ar x y < 256 ^ 4) :
    ∃ p f, array2hdr W H ar = some p ∧ p.rows = H ∧ p.cols = W ∧ hdr2array p = .ok ((W, H), f) ∧
      ∀ x < W, ∀ y < H, f x y = ar x y := by
  have hlt : ∀ n ∈ tab2 H W (fun r x => ar x (H - 1 - r)), n < 256 ^ f32.itemsize := by
    intro n hn
    obtain ⟨r, hr, c, hc, rfl⟩ := mem_tab2 _ _ _ _ hn
    exact har c hc _ (by omega)
  refine ⟨⟨H, W, fun r c _ => at2 W (tab2 H W (fun r x => ar x (H - 1 - r))) r c⟩, ?_⟩
  refine ⟨fun x y => at2 W (tab2 H W fun r c => at2 W (tab2 H W (fun r x => ar x (H - 1 - r))) r c) (H - 1 - y) x,
    ?_, rfl, rfl, ?_, ?_⟩
  · simp [array2hdr, pvalueStoreGrey, pv_f32, np2bytes, frombuffer_enc f32 (by decide) _ hlt]
  · have hlt2 : ∀ n ∈ tab2 H W (fun r c => at2 W (tab2 H W (fun r x => ar x (H - 1 - r))) r c), n < 256 ^ f32.itemsize := by
      intro n hn
      obtain ⟨r, hr, c, hc, rfl⟩ := mem_tab2 _ _ _ _ hn
      rw [at2_tab2 H W _ r c hr hc]
      exact har c hc _ (by omega)
    simp only [hdr2array, pvaluePrintGrey, pv_f32, bytes2np, np2bytes]
    rw [frombuffer_enc f32 (by decide) _ hlt2]
    have := resolve_nat (H * W) [H, W] (by simp [size])
    simp at this
    simp [length_tab2, this]
  · intro x hx y hy
    have h1 : H - 1 - y < H := by omega
    simp only
    rw [at2_tab2 H W _ _ _ h1 hx, at2_tab2 H W _ _ _ h1 hx]
    congr 1
    omega

/-- C08. The picture file has the orientation Radiance expects: `-Y H +X W`, array position `(x, y)` in column `x`,
counted from the left, and row `H - 1 - y` from the top (so y points up). -/
theorem C08_orientation (W H : Nat) (ar : Nat → Nat → Nat) (har : ∀ x < W, ∀ y < H, ar x y < 256 ^ 4) (p : Pic)
    (hp : array2hdr W H ar = some p) : p.rows = H ∧ p.cols = W ∧
      ∀ x < W, ∀ y < H, p.px (H - 1 - y) x 0 = ar x y := by
  have hlt : ∀ n ∈ tab2 H W (fun r x => ar x (H - 1 - r)), n < 256 ^ f32.itemsize := by
    intro n hn
    obtain ⟨r, hr, c, hc, rfl⟩ := mem_tab2 _ _ _ _ hn
    exact har c hc _ (by omega)
  simp [array2hdr, pvalueStoreGrey, pv_f32, np2bytes, frombuffer_enc f32 (by decide) _ hlt] at hp
  subst hp
  refine ⟨rfl, rfl, fun x hx y hy => ?_⟩
  simp only
  rw [at2_tab2 H W _ _ _ (by omega) hx]
  congr 1
  omega

/-- C08. The same for colour arrays of shape `(3, W, H)`. -/
theorem C08_colour_round_trip (W H : Nat) (ar : Nat → Nat → Nat → Nat)
    (har : ∀ c < 3, ∀ x < W, ∀ y < H, ar c x y < 256 ^ 4) :
    ∃ p f, carray2hdr W H ar = some p ∧ p.rows = H ∧ p.cols = W ∧ hdr2carray p = .ok ((3, W, H), f) ∧
      ∀ c < 3, ∀ x < W, ∀ y < H, f c x y = ar c x y := by
  have hlt : ∀ n ∈ tab3 H W 3 (fun r x c => ar c x (H - 1 - r)), n < 256 ^ f32.itemsize := by
    intro n hn
    obtain ⟨r, hr, x, hx, c, hc, rfl⟩ := mem_tab3 _ _ _ _ _ hn
    exact har c hc x hx _ (by omega)
  refine ⟨⟨H, W, fun r x c => at3 W 3 (tab3 H W 3 (fun r x c => ar c x (H - 1 - r))) r x c⟩, ?_⟩
  refine ⟨fun c x y => at3 H W (tab3 3 H W fun c r x => at3 W 3 (tab3 H W 3 (fun r x c => ar c x (H - 1 - r))) r x c)
    c (H - 1 - y) x, ?_, rfl, rfl, ?_, ?_⟩
  · simp [carray2hdr, pvalueStoreColor, pv_f32, np2bytes, frombuffer_enc f32 (by decide) _ hlt]
  · have hlt2 : ∀ n ∈ tab3 3 H W (fun c r x => at3 W 3 (tab3 H W 3 (fun r x c => ar c x (H - 1 - r))) r x c),
        n < 256 ^ f32.itemsize := by
      intro n hn
      obtain ⟨c, hc, r, hr, x, hx, rfl⟩ := mem_tab3 _ _ _ _ _ hn
      rw [at3_tab3 H W 3 _ r x c hr hx hc]
      exact har c hc x hx _ (by omega)
    simp only [hdr2carray, pvaluePrintColor, pv_f32, bytes2np, np2bytes]
    rw [frombuffer_enc f32 (by decide) _ hlt2]
    have := resolve_nat (3 * H * W) [3, H, W] (by simp [size]; ring)
    simp at this
    simp [length_tab3, this]
  · intro c hc x hx y hy
    have h1 : H - 1 - y < H := by omega
    simp only
    rw [at3_tab3 3 H W _ _ _ _ hc h1 hx, at3_tab3 H W 3 _ _ _ _ h1 hx hc]
    congr 1
    omega

/-- C08. Reading something that is not a picture (pvalue prints fewer than three tokens) is reported as ValueError. -/
theorem C08_not_a_picture (parse : Str → Option Int) (toks : List Str) (h : toks.length < 3) :
    hdrInShape parse toks = .error .ValueError := by
  match toks, h with
  | [], _ => rfl
  | [_], _ => rfl
  | [_, _], _ => rfl

/-- C08. The resolution line `-Y rows +X cols` is read as `(rows, cols)`. -/
theorem C08_resolution_line (parse : Str → Option Int) (r c : Int) (rt ct : Str) (hr : parse rt = some r)
    (hc : parse ct = some c) : hdrInShape parse ["-Y".toList, rt, "+X".toList, ct] = .ok (r, c) := by
  simp [hdrInShape, hr, hc]

-- a 2 x 3 picture: hypotheses met, positions preserved
example : ∀ x < 2, ∀ y < 3, (fun x y => 10 * x + y) x y < 256 ^ 4 := by decide

end Verif.Bytes
