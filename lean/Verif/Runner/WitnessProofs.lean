import Verif.Runner.Witness
import Verif.Props.Serde
import Verif.Tensor.ShapeProofs

/-! # Facts about witness packing -/

namespace JST.Witness

open JST

variable {F : Type} [Inhabited F] {P : Nat}

/-- All witnesses have `m` values. -/
def Uniform {α : Type} (m : Nat) (ws : List (List α)) : Prop := ∀ w ∈ ws, w.length = m

theorem flatten_length {α : Type} {m : Nat} : ∀ {ws : List (List α)}, Uniform m ws →
    ws.flatten.length = ws.length * m
  | [], _ => by simp
  | w :: ws, h => by
    have h1 := h w (by simp)
    have h2 := flatten_length (ws := ws) (fun x hx => h x (by simp [hx]))
    simp only [List.flatten_cons, List.length_append, List.length_cons, h1, h2]
    ring

theorem flatten_drop {α : Type} {m : Nat} : ∀ {ws : List (List α)} (k : Nat), Uniform m ws →
    ws.flatten.drop (k * m) = (ws.drop k).flatten
  | [], k, _ => by simp
  | w :: ws, 0, _ => by simp
  | w :: ws, k + 1, h => by
    have h1 := h w (by simp)
    have h2 := flatten_drop (ws := ws) k (fun x hx => h x (by simp [hx]))
    rw [List.flatten_cons, List.drop_succ_cons, ← h2, Nat.add_mul, Nat.one_mul, Nat.add_comm,
      ← List.drop_drop, ← h1, List.drop_left]

theorem flatten_get {α : Type} {m : Nat} {ws : List (List α)} (h : Uniform m ws) {j i : Nat}
    (hi : i < m) : ws.flatten[j * m + i]? = (ws[j]?).bind (·[i]?) := by
  rw [← List.getElem?_drop, flatten_drop j h]
  by_cases hj : j < ws.length
  · rw [List.drop_eq_getElem_cons hj, List.flatten_cons, List.getElem?_append_left]
    · rw [List.getElem?_eq_getElem hj]; rfl
    · rw [h _ (List.getElem_mem hj)]; exact hi
  · rw [List.drop_eq_nil_of_le (by omega), List.getElem?_eq_none (by omega : ws.length ≤ j)]
    simp

/-- The witness a lane carries: its own while there are enough, the last one otherwise. -/
def lane {α : Type} (ws : List (List α)) (j : Nat) : List α := ws.getD (min j (ws.length - 1)) []

theorem lane_of_lt {α : Type} {ws : List (List α)} {j : Nat} (h : j < ws.length) :
    lane ws j = ws[j] := by
  unfold lane
  rw [Nat.min_eq_left (by omega), List.getD_eq_getElem _ _ h]

theorem lane_length {α : Type} {m : Nat} {ws : List (List α)} (h : Uniform m ws) (hn : ws ≠ [])
    (j : Nat) : (lane ws j).length = m := by
  have : 0 < ws.length := List.length_pos_iff.2 hn
  unfold lane
  rw [List.getD_eq_getElem _ _ (by omega)]
  exact h _ (List.getElem_mem _)

theorem packAt_eq {ws : List (List F)} {m : Nat} (h : Uniform m ws) (hn : ws ≠ []) (hm : 0 < m)
    {i : Nat} (hi : i < m) (j : Fin P) :
    packAt (P := P) ws.flatten m (min (ws.flatten.length / m) P) i j
      = (lane ws j).getD i default := by
  have hpos : 0 < ws.length := List.length_pos_iff.2 hn
  have hlen : ws.flatten.length / m = ws.length := by
    rw [flatten_length h, Nat.mul_div_cancel _ hm]
  have hj := j.isLt
  have key : ∀ k, k < ws.length → ws.flatten.getD (k * m + i) default
      = (ws.getD k []).getD i default := by
    intro k hk
    rw [List.getD_eq_getElem?_getD, flatten_get h hi, List.getElem?_eq_getElem hk,
      List.getD_eq_getElem _ _ hk, List.getD_eq_getElem?_getD]
    rfl
  unfold packAt lane
  rw [hlen]
  split_ifs with hc
  · rw [key _ (by omega), Nat.min_eq_left (by omega)]
  · rw [key _ (by omega)]
    congr 2
    omega

/-- Every read of `pack_block` is in range. -/
theorem packBlock_index (s : List F) (m sz i j : Nat) (hm : i < m)
    (hsz : sz ≤ s.length / m) (hj : j < sz) : j * m + i < s.length := by
  have h1 : sz * m ≤ s.length := le_trans (Nat.mul_le_mul_right _ hsz) (Nat.div_mul_le_self _ _)
  have h2 : (j + 1) * m ≤ sz * m := Nat.mul_le_mul_right _ hj
  rw [Nat.add_mul, Nat.one_mul] at h2
  omega

theorem packBlock_eq {ws : List (List F)} {a b : Nat} (h : Uniform (a + b) ws) (hn : ws ≠ [])
    (hm : 0 < a + b) : packBlock P ws.flatten a b
      = some ((List.range a).map fun i => fun j : Fin P => (lane ws j).getD i default,
          (List.range' a b).map fun i => fun j : Fin P => (lane ws j).getD i default) := by
  have hpos : 0 < ws.length := List.length_pos_iff.2 hn
  have hlen : ws.flatten.length / (a + b) = ws.length := by
    rw [flatten_length h, Nat.mul_div_cancel _ hm]
  unfold packBlock
  dsimp only
  rw [if_neg (by omega), if_neg (by rw [hlen]; omega)]
  simp only [Option.some.injEq, Prod.mk.injEq]
  constructor
  · apply List.map_congr_left
    intro i hi
    funext j
    exact packAt_eq h hn hm (by simp at hi; omega) j
  · apply List.map_congr_left
    intro i hi
    funext j
    exact packAt_eq h hn hm (by simp at hi; omega) j

/-! ### Iterating -/

theorem slice_eq {α : Type} (v : List α) (lo hi : Nat) (h1 : lo ≤ hi) (h2 : hi ≤ v.length) :
    slice v lo hi = some ((v.drop lo).take (hi - lo)) := by
  unfold slice; rw [if_pos ⟨h1, h2⟩]

/-- The two slices of one witness in a flat list of blocks. -/
theorem slices {α : Type} {ws : List (List α)} {a b : Nat} (h : Uniform (a + b) ws) {k : Nat}
    (hk : k < ws.length) :
    slice ws.flatten (k * (a + b)) (k * (a + b) + a) = some (ws[k].take a) ∧
    slice ws.flatten (k * (a + b) + a) (k * (a + b) + a + b) = some (ws[k].drop a) := by
  have hl := flatten_length h
  have hle : (k + 1) * (a + b) ≤ ws.length * (a + b) := Nat.mul_le_mul_right _ hk
  rw [Nat.add_mul, Nat.one_mul] at hle
  have hw := h _ (List.getElem_mem hk)
  have hd : ws.flatten.drop (k * (a + b)) = ws[k] ++ (ws.drop (k + 1)).flatten := by
    rw [flatten_drop k h, List.drop_eq_getElem_cons hk, List.flatten_cons]
  constructor
  · rw [slice_eq _ _ _ (by omega) (by omega), hd, Nat.add_sub_cancel_left,
      List.take_append_of_le_length (by omega)]
  · rw [slice_eq _ _ _ (by omega) (by omega), ← List.drop_drop, hd, Nat.add_sub_cancel_left,
      List.drop_append_of_le_length (by omega), List.take_append_of_le_length (by simp; omega)]
    congr 1
    exact List.take_of_length_le (by simp; omega)

theorem scalarLoop_scalar {ws : List (List F)} {a b N : Nat} (h : Uniform (a + b) ws) :
    ∀ (n idx : Nat) (buf : List (List F × List F)), idx + n ≤ ws.length →
      scalarLoop (⟨N, a, b, .scalar ws.flatten⟩ : Wit F P) n idx buf
        = some ((ws.drop idx).take n |>.map fun w => (w.take a, w.drop a))
  | 0, idx, buf, _ => by simp [scalarLoop]
  | n + 1, idx, buf, hn => by
    obtain ⟨h1, h2⟩ := slices h (show idx < ws.length by omega)
    have ih := scalarLoop_scalar (N := N) h n (idx + 1) buf (by omega)
    simp only [scalarLoop, h1, h2, ih, Option.bind_eq_bind, Option.bind_some]
    rw [List.drop_eq_getElem_cons (show idx < ws.length by omega), List.take_succ_cons,
      List.map_cons]

/-- The blocks `convert_to_simd` stores. -/
def blocksOf (P m : Nat) (ws : List (List F)) : List (List (Fin P → F)) :=
  (List.range (numBlocks P ws.length)).map fun k =>
    (List.range m).map fun i => fun j : Fin P => (lane (ws.drop (k * P)) j).getD i default

theorem blocksOf_uniform (m : Nat) (ws : List (List F)) : Uniform m (blocksOf P m ws) := by
  intro w hw
  simp only [blocksOf, List.mem_map] at hw
  obtain ⟨k, _, rfl⟩ := hw
  simp

theorem mul_lt_of_lt_numBlocks {P n k : Nat} (hP : 0 < P) (hk : k < numBlocks P n) : k * P < n := by
  unfold numBlocks at hk
  have h1 : (k + 1) * P ≤ (n + P - 1) / P * P := Nat.mul_le_mul_right _ hk
  have h2 := Nat.div_mul_le_self (n + P - 1) P
  rw [Nat.add_mul, Nat.one_mul] at h1
  omega

theorem lt_numBlocks {P n idx : Nat} (hP : 0 < P) (h : idx < n) : idx / P < numBlocks P n := by
  unfold numBlocks
  rw [Nat.lt_iff_add_one_le, Nat.le_div_iff_mul_le hP, Nat.add_mul, Nat.one_mul]
  have := Nat.div_mul_le_self idx P
  omega

theorem drop_uniform {α : Type} {m k : Nat} {ws : List (List α)} (h : Uniform m ws) :
    Uniform m (ws.drop k) := fun w hw => h w (List.mem_of_mem_drop hw)

theorem convertToSimd_eq {ws : List (List F)} {a b : Nat} (h : Uniform (a + b) ws)
    (hP : 0 < P) (hm : 0 < a + b) :
    convertToSimd (⟨ws.length, a, b, .scalar ws.flatten⟩ : Wit F P)
      = some ⟨ws.length, a, b, .simd (blocksOf P (a + b) ws).flatten⟩ := by
  unfold convertToSimd
  dsimp only
  have hkey : (List.range (numBlocks P ws.length)).mapM (fun i =>
      if i * P * (a + b) ≤ ws.flatten.length then
        (packBlock P (ws.flatten.drop (i * P * (a + b))) (a + b) 0).map Prod.fst else none)
      = some (blocksOf P (a + b) ws) := by
    unfold blocksOf
    apply Shape.mapM_some
    intro k hk
    have hk' : k * P < ws.length := mul_lt_of_lt_numBlocks hP (by simpa using hk)
    have hle : k * P * (a + b) ≤ ws.flatten.length := by
      rw [flatten_length h]; exact Nat.mul_le_mul_right _ (le_of_lt hk')
    rw [if_pos hle, flatten_drop _ h,
      packBlock_eq (a := a + b) (b := 0) (drop_uniform h) (by simp; omega) (by omega)]
    rfl
  rw [hkey]
  rfl

theorem unpackBlock_get {bs : List (List (Fin P → F))} {a b : Nat} (h : Uniform (a + b) bs)
    {k : Nat} (hk : k < bs.length) (j : Fin P) :
    (unpackBlock (bs.flatten.drop (k * (a + b))) a b)[j.val]?
      = some ((bs[k].take a).map (· j), (bs[k].drop a).map (· j)) := by
  have hw := h _ (List.getElem_mem hk)
  have hd : bs.flatten.drop (k * (a + b)) = bs[k] ++ (bs.drop (k + 1)).flatten := by
    rw [flatten_drop k h, List.drop_eq_getElem_cons hk, List.flatten_cons]
  have e1 : (bs.flatten.drop (k * (a + b))).take a = bs[k].take a := by
    rw [hd, List.take_append_of_le_length (by omega)]
  have e2 : ((bs.flatten.drop (k * (a + b))).drop a).take b = bs[k].drop a := by
    rw [hd, List.drop_append_of_le_length (by omega),
      List.take_append_of_le_length (by simp; omega), List.take_of_length_le (by simp; omega)]
  unfold unpackBlock
  rw [e1, e2, List.getElem?_eq_getElem (by simp), List.getElem_ofFn]

/-- The item the scalar iterator yields at `idx` from packed blocks. -/
def itemAt (bs : List (List (Fin P → F))) (a : Nat) (hP : 0 < P) (idx : Nat) : List F × List F :=
  let blk := bs.getD (idx / P) []
  let j : Fin P := ⟨idx % P, Nat.mod_lt _ hP⟩
  ((blk.take a).map (· j), (blk.drop a).map (· j))

theorem unpackBlock_length (s : List (Fin P → F)) (a b : Nat) : (unpackBlock s a b).length = P := by
  simp [unpackBlock]

theorem scalarLoop_simd {bs : List (List (Fin P → F))} {a b N : Nat} (h : Uniform (a + b) bs)
    (hP : 0 < P) : ∀ (n idx : Nat) (buf : List (List F × List F)), idx + n ≤ bs.length * P →
      (idx % P ≠ 0 → ∀ j, idx % P ≤ j →
        buf[j]? = (unpackBlock (bs.flatten.drop (idx / P * (a + b))) a b)[j]?) →
      scalarLoop (⟨N, a, b, .simd bs.flatten⟩ : Wit F P) n idx buf
        = some ((List.range' idx n).map (itemAt bs a hP))
  | 0, idx, buf, _, _ => by simp [scalarLoop]
  | n + 1, idx, buf, hn, hb => by
    have hk : idx / P < bs.length := by
      rw [Nat.div_lt_iff_lt_mul hP]; omega
    have hmod := Nat.mod_lt idx hP
    have hle : idx / P * (a + b) ≤ bs.flatten.length := by
      rw [flatten_length h]; exact Nat.mul_le_mul_right _ (le_of_lt hk)
    set U := unpackBlock (bs.flatten.drop (idx / P * (a + b))) a b with hU
    have hitem : U[idx % P]? = some (itemAt bs a hP idx) := by
      rw [hU, unpackBlock_get h hk ⟨idx % P, hmod⟩]
      simp only [itemAt, List.getD_eq_getElem _ _ hk]
    -- the buffer in use after the refill
    have hbuf : ∃ buf', (if idx % P = 0 then
            (if idx / P * (a + b) ≤ bs.flatten.length then some U else none) else some buf)
          = some buf' ∧ ∀ j, idx % P ≤ j → buf'[j]? = U[j]? := by
      by_cases h0 : idx % P = 0
      · exact ⟨U, by rw [if_pos h0, if_pos hle], fun _ _ => rfl⟩
      · exact ⟨buf, by rw [if_neg h0], hb h0⟩
    obtain ⟨buf', hb1, hb2⟩ := hbuf
    have ih := scalarLoop_simd (N := N) h hP n (idx + 1) (buf'.set (idx % P) ([], [])) (by omega)
      (by
        intro h0 j hj
        have hsucc : (idx + 1) % P = idx % P + 1 ∧ (idx + 1) / P = idx / P := by
          have hlt : idx % P + 1 < P := by
            by_contra hc
            apply h0
            have he : idx % P + 1 = P := by omega
            have := Nat.div_add_mod idx P
            have e2 : idx + 1 = P * (idx / P + 1) := by rw [Nat.mul_add]; omega
            rw [e2]; simp
          have hdm := Nat.div_add_mod idx P
          constructor
          · have : idx + 1 = (idx % P + 1) + P * (idx / P) := by omega
            rw [this, Nat.add_mul_mod_self_left, Nat.mod_eq_of_lt hlt]
          · have : idx + 1 = (idx % P + 1) + P * (idx / P) := by omega
            rw [this, Nat.add_mul_div_left _ _ hP, Nat.div_eq_of_lt hlt]
            omega
        rw [hsucc.1] at hj
        rw [hsucc.2, ← hU, List.getElem?_set_ne (by omega)]
        exact hb2 j (by omega))
    have hget : buf'[idx % P]? = some (itemAt bs a hP idx) := by rw [hb2 _ (le_refl _), hitem]
    simp only [scalarLoop]
    rw [if_neg (by omega), hb1]
    simp only [Option.bind_eq_bind, Option.bind_some, hget, ih]
    rw [List.range'_succ, List.map_cons]

theorem map_getD_range {α : Type} [Inhabited α] (l : List α) (n : Nat) (h : l.length = n) :
    (List.range n).map (fun i => l.getD i default) = l := by
  subst h
  apply List.ext_getElem
  · simp
  · intro i h1 h2
    simp at h1
    simp [h1]

/-- What the scalar iterator yields after packing: the original witness. -/
theorem itemAt_blocksOf {ws : List (List F)} {m a : Nat} (h : Uniform m ws) (hP : 0 < P)
    {idx : Nat} (hi : idx < ws.length) :
    itemAt (blocksOf P m ws) a hP idx = (ws[idx].take a, ws[idx].drop a) := by
  have hk := lt_numBlocks hP hi
  have hblk : ∀ j : Fin P, j.val = idx % P →
      (((blocksOf P m ws).getD (idx / P) []).map (· j)) = ws[idx] := by
    intro j hj
    rw [List.getD_eq_getElem _ _ (by simp [blocksOf]; exact hk)]
    simp only [blocksOf, List.getElem_map, List.getElem_range, List.map_map]
    have hdm := Nat.div_add_mod idx P
    rw [Nat.mul_comm] at hdm
    have hl : j.val < (ws.drop (idx / P * P)).length := by simp; omega
    have : lane (ws.drop (idx / P * P)) j = ws[idx] := by
      rw [lane_of_lt hl, List.getElem_drop]
      congr 1; omega
    have hf : ((fun x : Fin P → F => x j) ∘ fun i => fun j : Fin P =>
        (lane (ws.drop (idx / P * P)) j).getD i default) = fun i => (ws[idx]).getD i default := by
      funext i; simp only [Function.comp, this]
    rw [hf, map_getD_range _ _ (h _ (List.getElem_mem hi))]
  unfold itemAt
  dsimp only
  rw [List.map_take, List.map_drop, hblk _ rfl]

theorem le_numBlocks_mul {P n : Nat} (hP : 0 < P) : n ≤ numBlocks P n * P := by
  unfold numBlocks
  have h1 := Nat.div_add_mod (n + P - 1) P
  have h2 := Nat.mod_lt (n + P - 1) hP
  rw [Nat.mul_comm]
  omega

end JST.Witness

namespace JST.Witness

theorem chunks_exist {α : Type} (m : Nat) : ∀ (n : Nat) (v : List α), v.length = n * m →
    ∃ ws : List (List α), ws.length = n ∧ Uniform m ws ∧ ws.flatten = v
  | 0, v, h => ⟨[], rfl, by intro w hw; simp at hw, by
      rw [Nat.zero_mul] at h; rw [List.length_eq_zero_iff.1 h]; rfl⟩
  | n + 1, v, h => by
    rw [Nat.add_mul, Nat.one_mul] at h
    obtain ⟨ws, h1, h2, h3⟩ := chunks_exist m n (v.drop m) (by simp; omega)
    refine ⟨v.take m :: ws, by simp [h1], ?_, by simp [h3]⟩
    intro w hw
    rcases List.mem_cons.1 hw with rfl | hw
    · simp; omega
    · exact h2 w hw

end JST.Witness
