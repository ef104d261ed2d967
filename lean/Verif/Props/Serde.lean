import Verif.IO.Serde
import Verif.Primes

/-!
# Property C26: binary serialisation
-/

namespace JST.Props

open JST

/-- The specification of a decoder on one value: whatever follows the encoding `e` of `a` is left
unread, and every proper prefix of `e` is rejected as truncated (with an I/O error, not a panic). -/
structure Decodes {α : Type} (d : De α) (a : α) (e : Bytes) : Prop where
  roundTrip : ∀ rest, d (e ++ rest) = .ok (a, rest)
  truncated : ∀ pre, pre <+: e → pre ≠ e → d pre = .error .io

theorem De.bind_ok {α β : Type} {d : De α} {f : α → De β} {s s' : Bytes} {a : α}
    (h : d s = .ok (a, s')) : (d >>= f) s = f a s' := by
  change (match d s with | .ok (a, s') => f a s' | .error e => .error e) = _
  rw [h]

theorem De.bind_err {α β : Type} {d : De α} {f : α → De β} {s : Bytes} {e : SErr}
    (h : d s = .error e) : (d >>= f) s = .error e := by
  change (match d s with | .ok (a, s') => f a s' | .error e => .error e) = _
  rw [h]

theorem De.bind_inv {α β : Type} {d : De α} {f : α → De β} {s s' : Bytes} {b : β}
    (h : (d >>= f) s = .ok (b, s')) : ∃ a s1, d s = .ok (a, s1) ∧ f a s1 = .ok (b, s') := by
  cases hd : d s with
  | error e => rw [De.bind_err hd] at h; cases h
  | ok r => obtain ⟨a, s1⟩ := r; rw [De.bind_ok hd] at h; exact ⟨a, s1, rfl, h⟩

theorem De.pure_eq {α : Type} (a : α) (s : Bytes) : (pure a : De α) s = .ok (a, s) := rfl

theorem Decodes.pure {α : Type} {a : α} : Decodes (Pure.pure a : De α) a [] :=
  ⟨fun _ => rfl, fun pre h hn => absurd (List.prefix_nil.mp h) hn⟩

theorem Decodes.bind {α β : Type} {d : De α} {f : α → De β} {a : α} {b : β} {e1 e2 : Bytes}
    (h1 : Decodes d a e1) (h2 : Decodes (f a) b e2) : Decodes (d >>= f) b (e1 ++ e2) := by
  constructor
  · intro rest
    rw [List.append_assoc, De.bind_ok (h1.roundTrip _)]
    exact h2.roundTrip rest
  · intro pre hp hne
    by_cases hlen : pre.length < e1.length
    · have hp1 : pre <+: e1 := List.prefix_of_prefix_length_le hp (List.prefix_append _ _) hlen.le
      exact De.bind_err (h1.truncated pre hp1 (by rintro rfl; omega))
    · have : e1 <+: pre :=
        List.prefix_of_prefix_length_le (List.prefix_append _ _) hp (by omega)
      obtain ⟨pre2, rfl⟩ := this
      rw [De.bind_ok (h1.roundTrip _)]
      exact h2.truncated pre2 ((List.prefix_append_right_inj e1).mp hp) (by rintro rfl; exact hne rfl)

theorem Decodes.map {α β : Type} {d : De α} {f : α → De β} {a : α} {b : β} {e : Bytes}
    (h1 : Decodes d a e) (h2 : f a = Pure.pure b) : Decodes (d >>= f) b e := by
  have := h1.bind (f := f) (b := b) (e2 := []) (by rw [h2]; exact Decodes.pure)
  rwa [List.append_nil] at this

theorem decodes_readExact {n : Nat} {b : Bytes} (h : b.length = n) : Decodes (readExact n) b b := by
  constructor
  · intro rest
    unfold readExact
    rw [if_neg (by rw [List.length_append]; omega), ← h, List.take_left, List.drop_left]
  · intro pre hp hne
    unfold readExact
    have h1 := hp.length_le
    rw [if_pos]
    rcases Nat.lt_or_ge pre.length n with hlt | hge
    · exact hlt
    · exact absurd (hp.eq_of_length (by omega)) hne

theorem decodes_le (w n : Nat) : Decodes (readExact w) (leEnc w n) (leEnc w n) :=
  decodes_readExact (leEnc_length w n)

theorem decodes_deN {α : Type} {d : De α} {enc : α → Bytes} (l : List α)
    (h : ∀ x ∈ l, Decodes d x (enc x)) : Decodes (deN d l.length) l (l.flatMap enc) := by
  induction l with
  | nil => exact Decodes.pure
  | cons x l ih =>
    rw [List.flatMap_cons, List.length_cons]
    exact (h x (by simp)).bind ((ih fun y hy => h y (by simp [hy])).map rfl)

theorem insertAll_nodup {κ ν : Type} [DecidableEq κ] (l : List (κ × ν))
    (acc : { l : List (κ × ν) // (l.map Prod.fst).Nodup })
    (h : ((acc.val ++ l).map Prod.fst).Nodup) : (insertAll acc l).val = acc.val ++ l := by
  induction l generalizing acc with
  | nil => simp [insertAll]
  | cons e l ih =>
    have hne : e.1 ∉ acc.val.map Prod.fst := by
      rw [List.map_append, List.nodup_append] at h
      intro hm
      exact h.2.2 _ hm _ (by simp) rfl
    have hi : insertEntry acc.val e.1 e.2 = acc.val ++ [e] := by
      unfold insertEntry; rw [if_neg hne]
    rw [insertAll, ih]
    · simp only [hi, List.append_assoc, List.singleton_append]
    · simp only [hi, List.append_assoc, List.singleton_append]; exact h

theorem fromUtf8_strBytes (s : String) : fromUtf8 (strBytes s) = some s := by
  unfold fromUtf8 strBytes
  have : (⟨s.toByteArray.data.toList.toArray⟩ : ByteArray) = s.toByteArray := by simp
  rw [dif_pos (by rw [this]; exact s.isValidUTF8)]

/-- **C26, round trip and truncation.** For every supported type and every value that fits in memory:
deserialising its serialisation followed by any bytes returns the value and leaves exactly those bytes
unread, and every proper prefix of the serialisation is rejected. -/
theorem C26_serde_round_trip (t : Ty) (v : t.Val) (h : t.Fits v) : Decodes t.de v (t.ser v) := by
  induction t with
  | unit => exact Decodes.pure
  | num w =>
    change Fin (256 ^ w) at v
    refine (decodes_le w v.val).map ?_
    rw [dif_pos (by rw [leDec_leEnc _ _ v.2]; exact v.2)]
    congr 1
    exact Fin.ext (leDec_leEnc _ _ v.2)
  | bool =>
    change Bool at v
    refine (decodes_le 1 v.toNat).map ?_
    cases v <;> rfl
  | field p w =>
    change Fin p at v
    have hf : p ≤ 256 ^ w := h
    have hv : v.val < 256 ^ w := lt_of_lt_of_le v.2 hf
    refine (decodes_le w v.val).map ?_
    rw [dif_pos (by rw [leDec_leEnc _ _ hv]; exact v.2)]
    congr 1
    exact Fin.ext (leDec_leEnc _ _ hv)
  | vec t ih =>
    change List t.Val at v
    obtain ⟨h1, h2⟩ : v.length < 2 ^ 64 ∧ ∀ x ∈ v, t.Fits x := h
    refine (decodes_le 8 v.length).bind ?_
    rw [leDec_leEnc _ _ (by rw [show (256 : Nat) ^ 8 = 2 ^ 64 by norm_num]; exact h1)]
    exact decodes_deN v fun x hx => ih x (h2 x hx)
  | arr n t ih =>
    obtain ⟨l, hl⟩ : { l : List t.Val // l.length = n } := v
    have h2 : ∀ x ∈ l, t.Fits x := h
    have := decodes_deN l fun x hx => ih x (h2 x hx)
    rw [hl] at this
    exact this.map (dif_pos hl)
  | pair a b iha ihb =>
    obtain ⟨x, y⟩ : a.Val × b.Val := v
    obtain ⟨h1, h2⟩ : a.Fits x ∧ b.Fits y := h
    exact (iha x h1).bind ((ihb y h2).map rfl)
  | map k w ihk ihv =>
    obtain ⟨l, hl⟩ : { l : List (k.Val × w.Val) // (l.map Prod.fst).Nodup } := v
    obtain ⟨h1, h2⟩ : l.length < mapCapLimit ∧ ∀ e ∈ l, k.Fits e.1 ∧ w.Fits e.2 := h
    refine (decodes_le 8 l.length).bind ?_
    have h64 : l.length < 256 ^ 8 := lt_trans h1 (by norm_num [mapCapLimit])
    rw [leDec_leEnc _ _ h64, if_neg (by omega)]
    refine (decodes_deN (enc := fun e => k.ser e.1 ++ w.ser e.2) l fun e he => ?_).map ?_
    · exact (ihk e.1 (h2 e he).1).bind ((ihv e.2 (h2 e he).2).map rfl)
    · congr 1
      exact Subtype.ext (insertAll_nodup l ⟨[], List.nodup_nil⟩ (by simpa using hl))
  | opt t ih =>
    change Option t.Val at v
    cases v with
    | none => exact (decodes_le 1 0).map rfl
    | some x =>
      have h1 : t.Fits x := (show ∀ y ∈ (some x : Option t.Val), t.Fits y from h) x rfl
      exact (decodes_le 1 1).bind ((ih x h1).map rfl)
  | str =>
    change String at v
    have h1 : (strBytes v).length < vecCapLimit := h
    refine (decodes_le 8 (strBytes v).length).bind ?_
    have h64 : (strBytes v).length < 256 ^ 8 := lt_trans h1 (by norm_num [vecCapLimit])
    rw [leDec_leEnc _ _ h64, if_neg (by omega)]
    refine (decodes_readExact rfl).map ?_
    rw [fromUtf8_strBytes]
    rfl
  | enum n f ih =>
    obtain ⟨i, x⟩ : (i : Fin n) × (f i).Val := v
    obtain ⟨h1, h2⟩ : n ≤ 2 ^ 32 ∧ (f i).Fits x := h
    have hi : i.val < 256 ^ 4 := lt_of_lt_of_le i.2 (le_trans h1 (by norm_num))
    refine (decodes_le 4 i.val).bind ?_
    have e : leDec (leEnc 4 i.val) = i.val := leDec_leEnc _ _ hi
    have hlt : leDec (leEnc 4 i.val) < n := by rw [e]; exact i.2
    rw [dif_pos hlt]
    have e' : (⟨leDec (leEnc 4 i.val), hlt⟩ : Fin n) = i := Fin.ext e
    generalize (⟨leDec (leEnc 4 i.val), hlt⟩ : Fin n) = j at e'
    subst e'
    exact (ih _ x h2).map rfl

/-- Consequence: distinct values have distinct serialisations, and no serialisation is a proper prefix of
another. -/
theorem C26_serde_prefix_free (t : Ty) (v w : t.Val) (hv : t.Fits v) (hw : t.Fits w)
    (h : t.ser v <+: t.ser w) : v = w := by
  obtain ⟨r, hr⟩ := h
  have h1 := (C26_serde_round_trip t v hv).roundTrip r
  have h2 := (C26_serde_round_trip t w hw).roundTrip []
  rw [hr] at h1
  rw [List.append_nil] at h2
  rw [h1] at h2
  cases h2
  rfl

/-! ### Canonicity -/

/-- The types without `bool`, `Option` and `HashMap` inside. -/
def Strict : Ty → Prop
  | .unit => True
  | .num _ => True
  | .bool => False
  | .field _ _ => True
  | .vec t => Strict t
  | .arr _ t => Strict t
  | .pair a b => Strict a ∧ Strict b
  | .map _ _ => False
  | .opt _ => False
  | .str => True
  | .enum _ f => ∀ i, Strict (f i)

theorem readExact_inv {n : Nat} {s b s' : Bytes} (h : readExact n s = .ok (b, s')) :
    b.length = n ∧ s = b ++ s' := by
  unfold readExact at h
  split_ifs at h with hl
  simp only [Except.ok.injEq, Prod.mk.injEq] at h
  obtain ⟨rfl, rfl⟩ := h
  exact ⟨by rw [List.length_take]; omega, (List.take_append_drop n s).symm⟩

theorem deN_inv {α : Type} {d : De α} {enc : α → Bytes} (n : Nat) (s s' : Bytes) (l : List α)
    (hd : ∀ s s' x, d s = .ok (x, s') → s = enc x ++ s') (h : deN d n s = .ok (l, s')) :
    l.length = n ∧ s = l.flatMap enc ++ s' := by
  induction n generalizing s l with
  | zero => cases h; exact ⟨rfl, rfl⟩
  | succ n ih =>
    obtain ⟨x, s1, h1, h2⟩ := De.bind_inv h
    obtain ⟨xs, s2, h3, h4⟩ := De.bind_inv h2
    cases h4
    obtain ⟨h5, h6⟩ := ih _ _ h3
    refine ⟨by simp [h5], ?_⟩
    rw [hd _ _ _ h1, h6, List.flatMap_cons, List.append_assoc]

/-- **C26, canonicity.** For types without `bool`, `Option` and maps, whatever is accepted is exactly the
serialisation of the value returned followed by the unread bytes. -/
theorem C26_serde_canonical (t : Ty) (ht : Strict t) (s s' : Bytes) (v : t.Val)
    (h : t.de s = .ok (v, s')) : s = t.ser v ++ s' := by
  induction t generalizing s s' with
  | unit => cases h; rfl
  | num w =>
    obtain ⟨b, s1, h1, h2⟩ := De.bind_inv (show deNum w s = _ from h)
    obtain ⟨hl, hs⟩ := readExact_inv h1
    split_ifs at h2 with hb
    · cases h2
      rw [hs]
      congr 1
      subst hl
      exact (leEnc_leDec b).symm
    · cases h2
  | bool => exact ht.elim
  | field p w =>
    obtain ⟨b, s1, h1, h2⟩ := De.bind_inv h
    obtain ⟨hl, hs⟩ := readExact_inv h1
    split_ifs at h2 with hb
    · cases h2
      rw [hs]
      congr 1
      subst hl
      exact (leEnc_leDec b).symm
    · cases h2
  | vec t ih =>
    obtain ⟨b, s1, h1, h2⟩ := De.bind_inv h
    obtain ⟨hl, hs⟩ := readExact_inv h1
    obtain ⟨h3, h4⟩ := deN_inv (enc := t.ser) _ _ _ _ (fun s s' x hx => ih ht s s' x hx) h2
    rw [hs, h4]
    change b ++ _ = (leEnc 8 (List.length _) ++ _) ++ _
    rw [h3, List.append_assoc]
    congr 1
    have := leEnc_leDec b
    rw [hl] at this
    exact this.symm
  | arr n t ih =>
    obtain ⟨l, s1, h1, h2⟩ := De.bind_inv h
    obtain ⟨h3, h4⟩ := deN_inv (enc := t.ser) _ _ _ _ (fun s s' x hx => ih ht s s' x hx) h1
    rw [dif_pos h3] at h2
    cases h2
    exact h4
  | pair a b iha ihb =>
    obtain ⟨x, s1, h1, h2⟩ := De.bind_inv h
    obtain ⟨y, s2, h3, h4⟩ := De.bind_inv h2
    cases h4
    rw [iha ht.1 _ _ _ h1, ihb ht.2 _ _ _ h3]
    exact (List.append_assoc _ _ _).symm
  | map k v => exact ht.elim
  | opt t => exact ht.elim
  | str =>
    obtain ⟨b, s1, h1, h2⟩ := De.bind_inv h
    obtain ⟨hl, hs⟩ := readExact_inv h1
    split_ifs at h2 with hc
    · cases h2
    · obtain ⟨l, s2, h3, h4⟩ := De.bind_inv h2
      obtain ⟨hl2, hs2⟩ := readExact_inv h3
      cases hu : fromUtf8 l with
      | none => rw [hu] at h4; cases h4
      | some x =>
        rw [hu] at h4
        obtain ⟨rfl, rfl⟩ : x = v ∧ s2 = s' := by
          simp only [De.pure_eq, Except.ok.injEq] at h4
          exact ⟨congrArg Prod.fst h4, congrArg Prod.snd h4⟩
        have hx : strBytes x = l := by
          unfold fromUtf8 at hu
          split_ifs at hu
          cases hu
          rfl
        change s = (leEnc 8 (strBytes x).length ++ strBytes x) ++ s2
        rw [hs, hs2, hx, hl2, List.append_assoc]
        congr 1
        have := leEnc_leDec b
        rw [hl] at this
        exact this.symm
  | enum n f ih =>
    obtain ⟨b, s1, h1, h2⟩ := De.bind_inv h
    obtain ⟨hl, hs⟩ := readExact_inv h1
    split_ifs at h2 with hb
    · obtain ⟨x, s2, h3, h4⟩ := De.bind_inv h2
      cases h4
      have := ih _ (ht _) _ _ _ h3
      rw [hs, this]
      change _ = (leEnc 4 (leDec b) ++ _) ++ _
      rw [List.append_assoc]
      congr 1
      have := leEnc_leDec b
      rw [hl] at this
      exact this.symm
    · cases h2

/-- `bool`, `Option` and maps have several accepted encodings: every nonzero byte is `true`, and a map
with a repeated key is accepted. -/
theorem C26_serde_noncanonical (b : UInt8) (hb : b ≠ 0) (hb1 : b ≠ 1) (s : Bytes) :
    Ty.bool.de (b :: s) = .ok ((true : Bool), s) ∧ b :: s ≠ Ty.bool.ser (true : Bool) ++ s := by
  constructor
  · have h1 : readExact 1 (b :: s) = .ok ([b], s) := by simp [readExact]
    refine (De.bind_ok h1).trans ?_
    have : leDec [b] ≠ 0 := by
      simp only [leDec, Nat.mul_zero, Nat.add_zero]
      intro h
      exact hb (UInt8.toNat_inj.mp (by simpa using h))
    have h2 : (leDec [b] != 0) = true := by simpa using this
    rw [h2]
    rfl
  · intro h
    have : b :: s = 1 :: s := h
    exact hb1 (List.cons.inj this).1

/-- **C26 is false for malformed lengths**: an 8-byte length prefix of `2^63` or more makes the string
decoder, and one of `2^61` or more makes the map decoder, panic instead of returning an error. -/
theorem C26_length_panics (n : Nat) (hn : n < 2 ^ 64) (rest : Bytes) :
    (2 ^ 63 ≤ n → Ty.str.de (leEnc 8 n ++ rest) = .error .panic) ∧
    (2 ^ 61 ≤ n → ∀ k v, (Ty.map k v).de (leEnc 8 n ++ rest) = .error .panic) := by
  have e : leDec (leEnc 8 n) = n :=
    leDec_leEnc _ _ (by rw [show (256 : Nat) ^ 8 = 2 ^ 64 by norm_num]; exact hn)
  have h1 := (decodes_le 8 n).roundTrip rest
  refine ⟨fun h => (De.bind_ok h1).trans ?_, fun h k v => (De.bind_ok h1).trans ?_⟩
  · rw [e, if_pos (show vecCapLimit ≤ n from h)]; rfl
  · rw [e, if_pos (show mapCapLimit ≤ n from h)]; rfl

/-! ### Non-vacuity -/

/-- A Merkle-path-like struct `{ index: usize, nodes: Vec<[u8; 2]>, tag: Option<String> }`. -/
def pathTy : Ty :=
  .pair (.num 8) (.pair (.vec (.arr 2 (.num 1))) (.pair (.opt .str) .unit))

/-- A value of it. -/
def pathVal : pathTy.Val :=
  ((⟨5, by norm_num⟩ : Fin (256 ^ 8)),
    ([⟨[(⟨1, by norm_num⟩ : Fin (256 ^ 1)), (⟨2, by norm_num⟩ : Fin (256 ^ 1))], rfl⟩] :
      List { l : List (Fin (256 ^ 1)) // l.length = 2 }), (none : Option String), ())

example : pathTy.Fits pathVal ∧ pathTy.ser pathVal =
    [5, 0, 0, 0, 0, 0, 0, 0, 1, 0, 0, 0, 0, 0, 0, 0, 1, 2, 0] := by
  refine ⟨⟨trivial, ⟨by decide, ?_⟩, ?_, trivial⟩, by decide +kernel⟩
  · intro x _ y _; trivial
  · intro x hx; cases hx

/-- A vector of BN254 scalars fits. -/
example : (Ty.vec (.field bn254P 32)).Fits ([⟨7, by norm_num [bn254P]⟩] : List (Fin bn254P)) :=
  ⟨by decide, fun _ _ => show bn254P ≤ 256 ^ 32 by norm_num [bn254P]⟩

end JST.Props
