import Verif.FailedLemmas

/-!
# Decoding a prefix of a chunk

What a decoder does on a reader with fewer bits, compared with a reader that has more bits after the
same ones.
-/

namespace Ebi

open BitM

/-- `r'` has the unread bits of `r` and `t` after them. -/
def More (t : List Bool) (r r' : BitReader) : Prop := r.WF ∧ r'.WF ∧ r'.rest = r.rest ++ t

/-- With more bits behind: a success stays the same success, a panic stays a panic. -/
def Mono {A : Type} (m : BitM A) : Prop :=
  ∀ t r r', More t r r' →
    match m r with
    | .ok a s => ∃ s', m r' = .ok a s' ∧ More t s s'
    | .err _ => True
    | .panic => m r' = .panic

theorem More.adv {t : List Bool} {r r' : BitReader} (h : More t r r') {n : Nat} (hn : n ≤ r.rest.length) :
    More t (r.adv n) (r'.adv n) := by
  obtain ⟨w, w', e⟩ := h
  refine ⟨BitReader.wf_adv w hn, BitReader.wf_adv w' (by rw [e, List.length_append]; omega), ?_⟩
  rw [BitReader.rest_adv, BitReader.rest_adv, e, List.drop_append_of_le_length hn]

theorem More.new (a b : List Byte) : More (bytesBits b) (BitReader.new a) (BitReader.new (a ++ b)) := by
  refine ⟨BitReader.wf_new _, BitReader.wf_new _, ?_⟩
  rw [BitReader.rest_new, BitReader.rest_new]
  simp [bytesBits]

namespace Mono

variable {A B : Type}

theorem pure (a : A) : Mono (Pure.pure a : BitM A) := fun _ _ r' h => ⟨r', rfl, h⟩

theorem panic : Mono (BitM.panic : BitM A) := fun _ _ _ _ => rfl

theorem bits (n : Nat) : Mono (bits n) := by
  intro t r r' h
  obtain ⟨w, w', e⟩ := h
  by_cases hl : r.rest.length < n
  · rw [bits_none ((readBits_none_iff w).2 hl)]
    trivial
  · have h1 := BitReader.readBits_eq w n
    have h2 := BitReader.readBits_eq w' n
    rw [if_neg hl] at h1
    rw [if_neg (by rw [e, List.length_append]; omega), e, List.take_append_of_le_length (by omega)] at h2
    rw [bits_some h1, bits_some h2]
    exact ⟨_, rfl, More.adv ⟨w, w', e⟩ (by omega)⟩

theorem bit : Mono bit := by
  intro t r r' h
  obtain ⟨w, w', e⟩ := h
  have h1 := BitReader.readBit_eq w
  have h2 := BitReader.readBit_eq w'
  cases hr : r.rest with
  | nil => rw [hr] at h1; rw [bit_none h1]; trivial
  | cons b bs =>
    rw [hr] at h1
    rw [e, hr] at h2
    rw [bit_some h1, bit_some h2]
    exact ⟨_, rfl, More.adv ⟨w, w', e⟩ (by rw [hr]; simp)⟩

theorem byte : Mono byte := by
  intro t r r' h
  obtain ⟨w, w', e⟩ := h
  have h1 := BitReader.readByteRaw_eq w
  have h2 := BitReader.readByteRaw_eq w'
  unfold BitM.byte BitReader.readByte
  by_cases hl : r.rest.length < 8
  · rw [h1, if_pos hl]
    trivial
  · rw [if_neg hl] at h1
    rw [if_neg (by rw [e, List.length_append]; omega), e, List.take_append_of_le_length (by omega)] at h2
    rw [h1, h2]
    exact ⟨_, rfl, More.adv ⟨w, w', e⟩ (by omega)⟩

theorem bind {m : BitM A} {f : A → BitM B} (hm : Mono m) (hf : ∀ a, Mono (f a)) : Mono (m >>= f) := by
  intro t r r' h
  have h1 := hm t r r' h
  simp only [bind_apply]
  cases hr : m r with
  | ok a s =>
    rw [hr] at h1
    obtain ⟨s', e, hs⟩ := h1
    rw [e]
    exact hf a t s s' hs
  | err s => trivial
  | panic =>
    rw [hr] at h1
    rw [h1]

theorem ite {c : Prop} [Decidable c] {a b : BitM A} (ha : Mono a) (hb : Mono b) : Mono (if c then a else b) := by
  split
  · exact ha
  · exact hb

/-- With the bits that are missing: if the longer input is used up to fewer than the missing bits, the
shorter one is not enough. -/
theorem err_of_short {m : BitM A} (hm : Mono m) {t : List Bool} {r r' s' : BitReader} {a : A} (h : More t r r')
    (hr : m r' = .ok a s') (hs : s'.rest.length < t.length) : ∃ s, m r = .err s := by
  have h1 := hm t r r' h
  cases e : m r with
  | ok b s =>
    rw [e] at h1
    obtain ⟨s'', e', -, -, hrest⟩ := h1
    rw [hr] at e'
    cases e'
    rw [hrest, List.length_append] at hs
    omega
  | err s => exact ⟨s, rfl⟩
  | panic => rw [e] at h1; rw [hr] at h1; cases h1

end Mono

theorem Gorilla.nextE_mono (d : Gorilla.Dec) : Mono (Gorilla.nextE d) := by
  have hs : ∀ d, Mono (readSigE d) := fun d => .bind (.bits _) fun _ => .pure _
  refine .ite (.pure _) (.bind (.ite (.bind (.bits _) fun _ => .pure _) (.bind .bit ?_))
    fun _ => .ite (.pure _) (.pure _))
  rintro (_ | _)
  · exact .pure _
  · refine .bind .bit ?_
    rintro (_ | _)
    · exact hs _
    · exact .bind (.bits _) fun _ => .bind (.bits _) fun _ => .ite .panic (hs _)

theorem Chimp.nextE_mono (d : Chimp.Dec) : Mono (Chimp.nextE d) := by
  have hx : ∀ d n s, Mono (xorBitsE d n s) := fun d n s => .bind (.bits _) fun _ => .pure _
  refine .ite (.pure _) (.bind (.ite (.bind (.bits _) fun _ => .pure _) (.bind (.bits _) ?_))
    fun _ => .ite (.pure _) (.pure _))
  rintro (_ | _ | _ | _ | n)
  · exact .pure _
  · exact .bind (.bits _) fun _ => .bind (.bits _) fun _ => .ite .panic (hx _ _ _)
  · exact .ite .panic (hx _ _ _)
  · exact .bind (.bits _) fun _ => hx _ _ _
  · exact .pure _

theorem Chimp128.nextE_mono (d : Chimp128.Dec) : Mono (Chimp128.nextE d) := by
  have hx : ∀ d n s, Mono (xorBitsE d n s) := fun d n s => .bind (.bits _) fun _ => .pure _
  refine .ite (.pure _) (.ite (.bind (.bits _) fun _ => .pure _) (.bind (.bits _) ?_))
  rintro (_ | _ | _ | _ | n)
  · exact .bind (.bits _) fun _ => .pure _
  · exact .bind (.bits _) fun _ => .ite .panic (hx _ _ _)
  · exact .ite .panic (hx _ _ _)
  · exact .bind (.bits _) fun _ => hx _ _ _
  · exact .bind (.bits _) fun _ => .pure _

theorem ElfXor.nextE_mono (d : ElfXor.Dec) : Mono (ElfXor.nextE d) := by
  refine .ite (.pure _) (.ite (.bind (.bits _) fun _ => .ite (.bind (.bits _) fun _ => .pure _) (.pure _))
    (.bind (.bits _) ?_))
  rintro (_ | _ | _ | _ | n)
  · exact .ite .panic (.bind (.bits _) fun _ => .pure _)
  · exact .pure _
  · exact .bind (.bits _) fun _ => .ite (.pure _) (.bind (.bits _) fun _ => .pure _)
  · exact .bind (.bits _) fun _ => .ite .panic (.bind (.bits _) fun _ => .pure _)
  · exact .ite .panic (.bind (.bits _) fun _ => .pure _)

theorem Elf.nextEDec_mono (lg : B64 → B64) {C : XorCodec} {K : C.Keeps} (h : ∀ x, Mono (K.nextE x))
    (d : Elf.Dec C) : Mono (Elf.nextEDec lg K d) := by
  have he : ∀ last x, Mono (readErasedE lg K.nextE last x) := fun _ x => .bind (h x) fun _ => .pure _
  refine .bind (.bind .bit ?_) fun _ => .pure _
  rintro (_ | _)
  · exact he _ _
  · refine .bind .bit ?_
    rintro (_ | _)
    · exact .bind (h _) fun _ => .pure _
    · exact .bind (.bits _) fun _ => he _ _

namespace XorCodec

variable {C : XorCodec} {K : C.Keeps}

theorem Keeps.collect_mono (h : ∀ d, Mono (K.nextE d)) (f : Nat) (d : C.D) : Mono (K.collect f d) := by
  induction f generalizing d with
  | zero => exact .panic
  | succ f ih =>
    rw [Keeps.collect]
    refine .bind (h d) ?_
    rintro ⟨_ | v, d⟩
    · exact .pure _
    · exact .bind (ih d) fun _ => .pure _

theorem Keeps.collect_fuel (hp : C.Progress) (f g : Nat) (d : C.D) (r : BitReader) (hr : r.WF)
    (hf : r.rest.length < f) (hg : r.rest.length < g) : K.collect f d r = K.collect g d r := by
  induction f generalizing g d r with
  | zero => omega
  | succ f ih =>
    obtain ⟨g, rfl⟩ : ∃ g', g = g' + 1 := ⟨g - 1, by omega⟩
    rw [Keeps.collect, Keeps.collect, bind_apply, bind_apply]
    cases hn : K.nextE d r with
    | ok p r' =>
      obtain ⟨v, d'⟩ := p
      cases v with
      | none => rfl
      | some v =>
        have hv : C.next d r = .value v d' r' := by rw [← K.erase, hn]; rfl
        obtain ⟨hw, hl⟩ := hp hr hv
        simp only [bind_apply]
        rw [ih g d' r' hw (by omega) (by omega)]
    | err r' => rfl
    | panic => rfl

/-- Decoding `a` fails or gives what decoding `a ++ b` gives. -/
theorem Keeps.decompress_prefix (h : ∀ d, Mono (K.nextE d)) (hp : C.Progress) (a b : List Byte) :
    (Reader.decompress C (Reader.new a)).map Prod.fst = .err ∨
    (Reader.decompress C (Reader.new a)).map Prod.fst = (Reader.decompress C (Reader.new (a ++ b))).map Prod.fst := by
  have hl : ∀ bs : List Byte, (BitReader.new bs).rest.length = 8 * bs.length := fun bs => by
    rw [BitReader.rest_new]; simp
  have h1 := Keeps.collect_mono h (8 * (a ++ b).length + 1) C.dinit _ _ _ (More.new a b)
  rw [← Keeps.collect_fuel hp (8 * a.length + 1) _ C.dinit (BitReader.new a) (BitReader.wf_new _)
    (by rw [hl]; omega) (by rw [hl, List.length_append]; omega)] at h1
  rw [← K.decompress_erase, ← K.decompress_erase]
  unfold Keeps.decompress Reader.new
  simp only
  change _ ∨ (Attempt.forget (match K.collect (8 * a.length + 1) C.dinit (BitReader.new a) with
    | .ok vs b => _ | .err b => _ | .panic => _)).map _ =
    (Attempt.forget (match K.collect (8 * (a ++ b).length + 1) C.dinit (BitReader.new (a ++ b)) with
    | .ok vs b => _ | .err b => _ | .panic => _)).map _
  cases e : K.collect (8 * a.length + 1) C.dinit (BitReader.new a) with
  | ok vs s =>
    rw [e] at h1
    obtain ⟨s', e', -⟩ := h1
    rw [e']
    exact .inr rfl
  | err s => left; change (Attempt.forget (match K.collect (8 * a.length + 1) C.dinit (BitReader.new a) with
      | .ok vs b => _ | .err b => _ | .panic => _)).map _ = _; rw [e]; rfl
  | panic =>
    rw [e] at h1
    simp only at h1
    rw [h1]
    exact .inr rfl

/-- Where the decoder of an encoded stream stands at the end: before the last bit of closing. -/
theorem Laws.collectE_at (L : C.Laws) (K : C.Keeps) {s : C.S} {d : C.D} {r : BitReader} {t : List Bool}
    (vs : List B64) (hok : ∀ v ∈ vs, L.Ok v) (h : L.Sim s d)
    (hr : r.At (L.emitAll s vs ++ (L.endBits (L.nextAll s vs) ++ t))) (fuel : Nat) (hf : vs.length < fuel) :
    ∃ r', K.collect fuel d r = .ok vs r' ∧ r'.At t := by
  induction vs generalizing s d r fuel with
  | nil =>
    obtain ⟨f, rfl⟩ : ∃ f, fuel = f + 1 := ⟨fuel - 1, by simp at hf; omega⟩
    obtain ⟨d', r', hn, ht⟩ := L.next_close h hr
    refine ⟨r', ?_, ht⟩
    rw [← K.erase] at hn
    rw [Keeps.collect, bind_apply]
    cases e : K.nextE d r with
    | ok p q =>
      obtain ⟨v, d2⟩ := p
      rw [e] at hn
      cases v <;> cases hn
      rfl
    | err _ => rw [e] at hn; cases hn
    | panic => rw [e] at hn; cases hn
  | cons v vs ih =>
    obtain ⟨f, rfl⟩ : ∃ f, fuel = f + 1 := ⟨fuel - 1, by simp at hf; omega⟩
    simp only [EncLaws.emitAll, List.append_assoc] at hr
    obtain ⟨d', r', hn, hr', hs'⟩ := L.next_value v (hok v (by simp)) h hr
    obtain ⟨r2, e2, ht⟩ := ih (fun x hx => hok x (by simp [hx])) hs' hr' f (by simp at hf; omega)
    refine ⟨r2, ?_, ht⟩
    rw [← K.erase] at hn
    rw [Keeps.collect, bind_apply]
    cases e : K.nextE d r with
    | ok p q =>
      obtain ⟨w, d2⟩ := p
      rw [e] at hn
      cases w <;> cases hn
      simp only [bind_apply]
      rw [e2]
      rfl
    | err _ => rw [e] at hn; cases hn
    | panic => rw [e] at hn; cases hn

/-- A collected stream as the outcome of `decompress`. -/
theorem Keeps.decompress_of_collect (K : C.Keeps) (bs : List Byte) :
    (∀ vs s, K.collect (8 * bs.length + 1) C.dinit (BitReader.new bs) = .ok vs s → C.decompress bs = .ok vs) ∧
    (∀ s, K.collect (8 * bs.length + 1) C.dinit (BitReader.new bs) = .err s → C.decompress bs = .err) := by
  have h := C.collectR_fst (8 * bs.length + 1) C.dinit (BitReader.new bs)
  rw [← K.collect_erase] at h
  unfold XorCodec.decompress
  constructor
  · intro vs s e
    rw [e] at h
    cases e2 : C.collect (8 * bs.length + 1) C.dinit (BitReader.new bs) <;> rw [e2] at h <;>
      simp_all [Attempt.forget, Res.map, Collect.toRes]
  · intro s e
    rw [e] at h
    cases e2 : C.collect (8 * bs.length + 1) C.dinit (BitReader.new bs) <;> rw [e2] at h <;>
      simp_all [Attempt.forget, Res.map, Collect.toRes]

/-- The first `m` bytes of an encoded chunk: they decode to all values if they hold the bits up to the last one,
and are reported otherwise. -/
theorem Laws.decompress_cut (L : C.Laws) (K : C.Keeps) (h : ∀ d, Mono (K.nextE d)) (hp : C.Progress)
    (c : C.Compressor) (vs : List B64) (hok : ∀ v ∈ vs, L.Ok v) :
    ∃ N, (C.buffers (C.prepare (C.compress c vs))).length = N / 8 + 1 ∧
      ∀ m, m ≤ (C.buffers (C.prepare (C.compress c vs))).length →
        C.decompress ((C.buffers (C.prepare (C.compress c vs))).take m) = if N ≤ 8 * m then .ok vs else .err := by
  have hrep := L.prepare_rep_all c vs
  unfold buffers BitWriter.asSlice
  obtain ⟨hb1, hb2, hbits⟩ := hrep
  generalize (C.prepare (C.compress c vs)).w.buf = buf at hbits
  generalize (C.prepare (C.compress c vs)).w.bitPos = bp at hb1 hb2 hbits
  rw [L.closeBits_eq] at hbits
  have hlen := congrArg List.length hbits
  have hvs := L.emitAll_length C.init vs
  have hl : ∀ bs : List Byte, (BitReader.new bs).rest.length = 8 * bs.length := fun bs => by
    rw [BitReader.rest_new]; simp
  simp only [bytesBits_length, List.length_append, List.length_cons, List.length_nil, List.length_replicate] at hlen
  refine ⟨(L.emitAll C.init vs ++ L.endBits (L.nextAll C.init vs)).length, ?_, ?_⟩
  · rw [List.length_append]; omega
  · intro m hm
    have hlt : (buf.take m).length = m := by rw [List.length_take]; omega
    rw [List.length_append]
    split
    · rename_i hN
      have hat := BitReader.at_new (buf.take m)
      have hsplit : bytesBits buf = bytesBits (buf.take m) ++ bytesBits (buf.drop m) := by
        rw [← bytesBits_append, List.take_append_drop]
      have hpre : bytesBits (buf.take m) = L.emitAll C.init vs ++ (L.endBits (L.nextAll C.init vs) ++
          (bytesBits (buf.take m)).drop (L.emitAll C.init vs ++ L.endBits (L.nextAll C.init vs)).length) := by
        have h1 : L.emitAll C.init vs ++ L.endBits (L.nextAll C.init vs) =
            (bytesBits buf).take (L.emitAll C.init vs ++ L.endBits (L.nextAll C.init vs)).length := by
          rw [hbits]
          simp only [← List.append_assoc]
          rw [List.append_assoc, List.take_left]
        have h2 : (bytesBits buf).take (L.emitAll C.init vs ++ L.endBits (L.nextAll C.init vs)).length =
            (bytesBits (buf.take m)).take (L.emitAll C.init vs ++ L.endBits (L.nextAll C.init vs)).length := by
          rw [hsplit, List.take_append_of_le_length]
          rw [bytesBits_length, hlt, List.length_append]
          omega
        rw [← List.append_assoc]
        conv => lhs; rw [← List.take_append_drop (L.emitAll C.init vs ++ L.endBits (L.nextAll C.init vs)).length
          (bytesBits (buf.take m))]
        rw [← h2, ← h1]
      rw [hpre] at hat
      obtain ⟨r', e, -⟩ := Laws.collectE_at L K vs hok L.sim_init hat (8 * (buf.take m).length + 1) (by rw [hlt]; omega)
      exact (K.decompress_of_collect _).1 _ _ e
    · rename_i hN
      have hat := BitReader.at_new buf
      rw [hbits] at hat
      simp only [List.append_assoc] at hat
      obtain ⟨r', e, hr'⟩ := Laws.collectE_at L K vs hok L.sim_init hat (8 * buf.length + 1) (by omega)
      have hmore := More.new (buf.take m) (buf.drop m)
      rw [List.take_append_drop] at hmore
      obtain ⟨s, es⟩ := (Keeps.collect_mono h (8 * buf.length + 1) C.dinit).err_of_short hmore e (by
        rw [hr'.2]
        simp only [List.length_append, List.length_cons, List.length_nil, List.length_replicate, bytesBits_length,
          List.length_drop]
        omega)
      rw [← Keeps.collect_fuel hp (8 * (buf.take m).length + 1) _ C.dinit (BitReader.new (buf.take m))
        (BitReader.wf_new _) (by rw [hl]; omega) (by rw [hl, hlt]; omega)] at es
      exact (K.decompress_of_collect _).2 _ es

end XorCodec

/-! ## Whole readers -/

/-- Failed, or the same answer. -/
def NotOther {A : Type} (x y : Res A) : Prop := x = .err ∨ x = y

theorem NotOther.map {A B : Type} {x y : Res A} (h : NotOther x y) (f : A → B) : NotOther (x.map f) (y.map f) := by
  rcases h with rfl | rfl
  · exact .inl rfl
  · exact .inr rfl

theorem takeExact_prefix {n : Nat} (a b : List Byte) :
    takeExact n a = none ∨ ∃ p q, takeExact n a = some (p, q) ∧ takeExact n (a ++ b) = some (p, q ++ b) := by
  unfold takeExact
  by_cases h : n ≤ a.length
  · right
    refine ⟨a.take n, a.drop n, by simp [h], ?_⟩
    rw [if_pos (by rw [List.length_append]; omega), List.take_append_of_le_length h, List.drop_append_of_le_length h]
  · left
    simp [h]

theorem Uncompressed.decompress_prefix (n : Nat) (a b : List Byte) :
    NotOther ((Reader.new n a).decompress.map Prod.fst) ((Reader.new n (a ++ b)).decompress.map Prod.fst) := by
  unfold Reader.new Reader.decompress
  rcases takeExact_prefix (n := 8 * n) a b with h | ⟨p, q, h1, h2⟩
  · simp only [h]
    exact .inl rfl
  · simp only [h1, h2]
    exact .inr rfl

theorem RunLength.decodeFields_prefix (k : Nat) (a b : List Byte) :
    decodeFields k a = none ∨
    ∃ vs q, decodeFields k a = some (vs, q) ∧ decodeFields k (a ++ b) = some (vs, q ++ b) := by
  induction k generalizing a with
  | zero => exact .inr ⟨[], a, rfl, rfl⟩
  | succ k ih =>
    rw [decodeFields, decodeFields]
    rcases takeExact_prefix (n := 9) a b with h | ⟨p, q, h1, h2⟩
    · simp [h]
    · rw [h1, h2]
      rcases ih q with h | ⟨vs, q', h3, h4⟩
      · simp [h]
      · right
        simp only [h3, h4]
        exact ⟨_, _, rfl, rfl⟩

theorem RunLength.decompress_prefix (n : Nat) (a b : List Byte) :
    NotOther (Reader.new n a >>= fun r => r.decompress.map Prod.fst)
      (Reader.new n (a ++ b) >>= fun r => r.decompress.map Prod.fst) := by
  unfold Reader.new Reader.decompress
  rcases takeExact_prefix (n := 8) a b with h | ⟨p, q, h1, h2⟩
  · simp only [h]
    exact .inl rfl
  · simp only [h1, h2, Res.bind_ok]
    rcases decodeFields_prefix (leNat p) q b with h | ⟨vs, q', h3, h4⟩
    · rw [h]; exact .inl rfl
    · rw [h3, h4]; exact .inr rfl

theorem RunLength.decodeFields_needs (k : Nat) {a q : List Byte} {vs : List B64} (h : decodeFields k a = some (vs, q)) :
    9 * k ≤ a.length := by
  induction k generalizing a q vs with
  | zero => omega
  | succ k ih =>
    rw [decodeFields] at h
    cases e : takeExact 9 a with
    | none => rw [e] at h; cases h
    | some p =>
      obtain ⟨x, y⟩ := p
      rw [e] at h
      simp only at h
      cases e2 : decodeFields k y with
      | none => rw [e2] at h; cases h
      | some z =>
        obtain ⟨us, q'⟩ := z
        have := ih e2
        unfold takeExact at e
        split at e
        · cases e
          simp at this
          omega
        · cases e

/-- The first `m` bytes of a run-length chunk, if some are missing. -/
theorem RunLength.decompress_cut (n : Nat) (R : Runs) (hR : R.length < 2 ^ 64) {m : Nat} (hm : m < (chunkOf R).length) :
    (Reader.new n ((chunkOf R).take m) >>= fun r => r.decompress.map Prod.fst) = .err := by
  unfold Reader.new Reader.decompress
  by_cases h8 : m < 8
  · have : takeExact 8 ((chunkOf R).take m) = none := by
      unfold takeExact
      rw [if_neg]
      rw [List.length_take]
      omega
    rw [this]
    rfl
  · have e : takeExact 8 ((chunkOf R).take m) = some (leBytes 8 R.length, (encFields R.reverse).take (m - 8)) := by
      unfold chunkOf
      rw [List.take_append, List.take_of_length_le (by simp; omega)]
      simp only [leBytes_length]
      exact takeExact_append' _ _ (leBytes_length _ _)
    rw [e]
    simp only [Res.bind_ok, leNat_leBytes]
    rw [Nat.mod_eq_of_lt (by simpa using hR)]
    cases e2 : decodeFields R.length ((encFields R.reverse).take (m - 8)) with
    | none => rfl
    | some z =>
      obtain ⟨vs, q⟩ := z
      have := decodeFields_needs _ e2
      simp [chunkOf] at hm this
      omega

theorem Uncompressed.decompress_cut (vs : List B64) {m : Nat} (hm : m < (ofF64s vs).length) :
    (Reader.new vs.length ((ofF64s vs).take m)).decompress.map Prod.fst = .err := by
  unfold Reader.new Reader.decompress takeExact
  simp only
  rw [if_neg]
  · rfl
  · rw [List.length_take]
    simp at hm ⊢
    omega

namespace Sprintz

theorem headerE_mono : Mono headerE :=
  .bind (.bits _) fun _ => .bind (.bits _) fun _ => .bind .byte fun _ => .pure _

theorem deltaE_mono (nb : Nat) (prev : BitVec 64) : Mono (deltaE nb prev) := .bind (.bits _) fun _ => .pure _

theorem iterE_mono (o : FloatOps) (scale nb k : Nat) (prev : BitVec 64) : Mono (iterE o scale nb k prev) := by
  induction k generalizing prev with
  | zero => exact .pure _
  | succ k ih =>
    exact .ite (.bind (ih _) fun _ => .pure _) (.bind (deltaE_mono _ _) fun _ => .bind (ih _) fun _ => .pure _)

theorem filterE_mono (p : Predicate (BitVec 64)) (off nb k i : Nat) (prev : BitVec 64)
    (bm : Bitmap) : Mono (filterE p off nb k i prev bm) := by
  induction k generalizing i prev bm with
  | zero => exact .pure _
  | succ k ih => exact .bind (deltaE_mono _ _) fun _ => ih _ _ _

theorem foldE_mono {A : Type} (f : A → BitVec 64 → A) (nb k : Nat) (prev : BitVec 64) (acc : A) :
    Mono (foldE f nb k prev acc) := by
  induction k generalizing prev acc with
  | zero => exact .pure _
  | succ k ih => exact .bind (deltaE_mono _ _) fun _ => ih _ _

theorem scanE_mono {A : Type} (f : A → BitVec 64 → A) (off nb k i : Nat) (prev : BitVec 64)
    (acc : A) (next : Nat) (more : List Nat) : Mono (scanE f off nb k i prev acc next more) := by
  induction k generalizing i prev acc next more with
  | zero => exact .pure _
  | succ k ih =>
    refine .bind (deltaE_mono _ _) fun _ => .ite (ih _ _ _ _ _) ?_
    cases more with
    | nil => exact .pure _
    | cons n more => exact ih _ _ _ _ _

theorem Reader.run_prefix {A : Type} {m : BitM A} (hm : Mono m) (n : Nat) (a b : List Byte) :
    NotOther (((Reader.new n a).run m).forget.map Prod.fst) (((Reader.new n (a ++ b)).run m).forget.map Prod.fst) := by
  have h := hm _ _ _ (More.new a b)
  unfold Reader.run Reader.new
  simp only
  cases e : m (BitReader.new a) with
  | ok x s =>
    rw [e] at h
    obtain ⟨s', e', -⟩ := h
    rw [e']
    exact .inr rfl
  | err s => exact .inl rfl
  | panic =>
    rw [e] at h
    simp only at h
    rw [h]
    exact .inr rfl

theorem Reader.new_reset (n : Nat) (a : List Byte) :
    ({ Reader.new n a with br := (Reader.new n a).br.reset } : Reader) = Reader.new n a := rfl

/-- The `map` of an attempt does not see the state. -/
theorem forget_map_fst {S A B : Type} (x : Attempt S A) (f : A → B) :
    (x.map f id).forget.map Prod.fst = (x.forget.map Prod.fst).map f := by cases x <;> rfl

theorem Reader.decompressE_prefix (o : FloatOps) (n : Nat) (a b : List Byte) :
    NotOther (((Reader.new n a).decompressE o).forget.map Prod.fst)
      (((Reader.new n (a ++ b)).decompressE o).forget.map Prod.fst) := by
  have h := run_prefix (Mono.bind headerE_mono fun h => iterE_mono o h.2.1 h.2.2 n h.1) n a b
  have hx : ∀ c, ((Reader.new n c).decompressE o).forget.map Prod.fst =
      ((Reader.new n c).run (headerE >>= fun h => iterE o h.2.1 h.2.2 n h.1)).forget.map Prod.fst := by
    intro c
    change Res.map Prod.fst (Attempt.forget (match (Reader.new n c).run (headerE >>= fun h => iterE o h.2.1 h.2.2 n h.1) with
      | .ok vs r => .ok vs { r with decompressed := some vs } | .err r => .err r | .panic => .panic)) = _
    cases (Reader.new n c).run (headerE >>= fun h => iterE o h.2.1 h.2.2 n h.1) <;> rfl
  rw [hx, hx]
  exact h

theorem ok_of_forget {S A : Type} {x : Attempt S A} {a : A} {s : S} (h : x.forget = .ofOption (some (a, s))) :
    x = .ok a s := by
  cases x <;> cases h
  rfl

/-- The first `m` bytes of a DeltaSprintz chunk, if some are missing. -/
theorem decompress_cut (o : FloatOps) {w : BitWriter} {scale : Nat} {qs : List (BitVec 64)}
    (hw : w.Rep (chunkBits scale qs)) {m : Nat} (hm : m < w.buf.length) :
    ((Reader.new qs.length (w.buf.take m)).decompress o).map Prod.fst = .err := by
  obtain ⟨hb1, hb2, hbits⟩ := hw
  have hat := BitReader.at_new w.buf
  rw [hbits, chunkBits] at hat
  simp only [List.append_assoc] at hat
  obtain ⟨h1, h2⟩ := readHeader_at hat (width_le qs)
  obtain ⟨r', h3, -, h4⟩ := iterLoop_at o (scale % 2 ^ 32) (width_le qs) qs (qs.headD 0) h2 (lt_width qs)
  have e1 := headerE_erase (BitReader.new w.buf)
  rw [h1] at e1
  have e2 := iterE_erase o (scale % 2 ^ 32) (width qs) qs.length (qs.headD 0) ((BitReader.new w.buf).adv 104)
  rw [h3] at e2
  have e : (headerE >>= fun h => iterE o h.2.1 h.2.2 qs.length h.1) (BitReader.new w.buf)
      = .ok (qs.map (dequantize o (scale % 2 ^ 32))) r' := by
    rw [bind_apply, ok_of_forget e1]
    exact ok_of_forget e2
  have hmore := More.new (w.buf.take m) (w.buf.drop m)
  rw [List.take_append_drop] at hmore
  have hmono : Mono (headerE >>= fun h => iterE o h.2.1 h.2.2 qs.length h.1) :=
    .bind headerE_mono fun h => iterE_mono o h.2.1 h.2.2 qs.length h.1
  obtain ⟨s, es⟩ := hmono.err_of_short hmore e (by
    rw [h4.2]
    simp only [bytesBits_length, List.length_drop, List.length_replicate]
    omega)
  have h6 : ((Reader.new qs.length (w.buf.take m)).decompressE o).forget = .err := by
    change Attempt.forget (match (Reader.new qs.length (w.buf.take m)).run
      (headerE >>= fun h => iterE o h.2.1 h.2.2 qs.length h.1) with
      | .ok vs r => .ok vs { r with decompressed := some vs } | .err r => .err r | .panic => .panic) = _
    unfold Reader.run
    simp only [Reader.new]
    rw [es]
    rfl
  rw [← Reader.decompressE_erase, h6]
  rfl

theorem Reader.numberE_prefix (o : FloatOps) (f : BitVec 64 → BitVec 64 → BitVec 64) (init : BitVec 64)
    (cached : List B64 → B64) (empty : B64) (bm : Option Bitmap) (off n : Nat) (a b : List Byte) :
    NotOther (((Reader.new n a).numberE o f init cached empty bm off).forget.map Prod.fst)
      (((Reader.new n (a ++ b)).numberE o f init cached empty bm off).forget.map Prod.fst) := by
  unfold Reader.numberE Reader.aggregateE
  rw [new_reset, new_reset]
  change NotOther (Res.map _ (Attempt.forget (if _ then _ else _))) (Res.map _ (Attempt.forget (if _ then _ else _)))
  split
  · exact .inr rfl
  · refine run_prefix (.bind headerE_mono fun h => ?_) n a b
    cases bm with
    | none => exact .bind (foldE_mono _ _ _ _ _) fun _ => .pure _
    | some bm =>
      change Mono (match inChunk off n bm with | [] => _ | n :: more => _)
      split
      · exact .pure _
      · exact .bind (scanE_mono _ _ _ _ _ _ _ _ _) fun _ => .pure _

theorem Reader.exec_prefix (o : FloatOps) (off : Nat) (q : ChunkQuery) (n : Nat) (a b : List Byte) :
    NotOther (((Reader.new n a).exec o off q).map Prod.fst) (((Reader.new n (a ++ b)).exec o off q).map Prod.fst) := by
  rw [← Reader.attempt_erase, ← Reader.attempt_erase]
  cases q with
  | materialize bm =>
    unfold Reader.attempt
    rw [new_reset, new_reset, forget_map_fst, forget_map_fst]
    exact (decompressE_prefix o n a b).map _
  | filter p bm =>
    unfold Reader.attempt
    rw [forget_map_fst, forget_map_fst]
    refine NotOther.map ?_ _
    refine run_prefix (.bind headerE_mono fun h => .ite (.pure _) (.bind (filterE_mono _ _ _ _ _ _ _) fun _ => .pure _)) n a b
  | sum bm => unfold Reader.attempt; rw [forget_map_fst, forget_map_fst]; exact (numberE_prefix ..).map _
  | min bm => unfold Reader.attempt; rw [forget_map_fst, forget_map_fst]; exact (numberE_prefix ..).map _
  | max bm => unfold Reader.attempt; rw [forget_map_fst, forget_map_fst]; exact (numberE_prefix ..).map _
  | filterMaterialize p bm =>
    unfold Reader.attempt; rw [forget_map_fst, forget_map_fst]; exact (decompressE_prefix o n a b).map _
  | distanceSquared i t =>
    unfold Reader.attempt; rw [forget_map_fst, forget_map_fst]; exact (decompressE_prefix o n a b).map _
  | dotProduct i t =>
    unfold Reader.attempt; rw [forget_map_fst, forget_map_fst]; exact (decompressE_prefix o n a b).map _

end Sprintz
end Ebi
