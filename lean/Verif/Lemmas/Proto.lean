import Verif.Spec.Proto
import Verif.Props.Truncate
import Verif.Props.Beaver

/-! Reasoning about protocols: `Sat m Q` says that `Q` holds of the result of `m`, for every valid stream of tuples and every number of earlier requests,
if no division was spoilt by a wrap-around. `SatX` is the same without that proviso. -/

namespace CrypTen
variable {n : ℕ} {α β ι ι' κ : Type}

theorem SatX.sat {m : Proto n α} {Q : α → Prop} (h : SatX m Q) : Sat m Q := fun T hT c _ => (h T hT c).2

theorem Sat.pure {a : α} {Q : α → Prop} (h : Q a) : Sat (n := n) (pure a) Q := fun _ _ _ _ => h

theorem SatX.pure {a : α} {Q : α → Prop} (h : Q a) : SatX (n := n) (pure a) Q := fun _ _ _ => ⟨trivial, h⟩

theorem Sat.bind {m : Proto n α} {f : α → Proto n β} {P : α → Prop} {Q : β → Prop} (hm : Sat m P) (hf : ∀ a, P a → Sat (f a) Q) :
    Sat (m >>= f) Q := fun T hT c hg => hf _ (hm T hT c hg.1) T hT _ hg.2

theorem SatX.bind {m : Proto n α} {f : α → Proto n β} {P : α → Prop} {Q : β → Prop} (hm : SatX m P) (hf : ∀ a, P a → SatX (f a) Q) :
    SatX (m >>= f) Q := fun T hT c => by
  obtain ⟨h1, h2⟩ := hm T hT c
  obtain ⟨h3, h4⟩ := hf _ h2 T hT (m T c).ctr
  exact ⟨⟨h1, h3⟩, h4⟩

theorem Sat.mono {m : Proto n α} {P Q : α → Prop} (hm : Sat m P) (h : ∀ a, P a → Q a) : Sat m Q := fun T hT c hg => h _ (hm T hT c hg)

theorem SatX.mono {m : Proto n α} {P Q : α → Prop} (hm : SatX m P) (h : ∀ a, P a → Q a) : SatX m Q :=
  fun T hT c => ⟨(hm T hT c).1, h _ (hm T hT c).2⟩

theorem Sat.and {m : Proto n α} {P Q : α → Prop} (hp : Sat m P) (hq : Sat m Q) : Sat m fun a => P a ∧ Q a :=
  fun T hT c hg => ⟨hp T hT c hg, hq T hT c hg⟩

theorem sat_mul [NeZero n] (B : BilinearOp ι ι' κ) (x : Shares n ι) (y : Shares n ι') :
    SatX (Proto.mul B x y) fun z => reveal z = B.apply (reveal x) (reveal y) :=
  fun _ hT c => ⟨trivial, C09_beaver_product B _ (hT.mul c B) x y⟩

theorem sat_square [NeZero n] (x : Shares n ι) : SatX (Proto.square x) fun z => ∀ i, reveal z i = reveal x i * reveal x i :=
  fun _ hT c => ⟨trivial, fun i => C10_beaver_square _ (hT.square c ι) x i⟩

theorem sat_and [NeZero n] (x y : Shares n ι) : SatX (Proto.and x y) fun z => ∀ i, revealX z i = revealX x i &&& revealX y i :=
  fun _ hT c => ⟨trivial, fun i => (C12_and_or _ (hT.bin c ι) x y i).1⟩

theorem sat_encryptX [NeZero n] (src : Fin n) (x : Tensor ι) : SatX (Proto.encryptX src x) fun z => revealX z = x := by
  refine fun T hT c => ⟨trivial, ?_⟩
  funext i
  have h0 := hT.zeroX c ι i
  have : (Proto.encryptX src x T c).val = xorShares (T.zeroX c ι) (fun p i => if p = src then x i else 0#64) := by
    funext p j
    simp only [Proto.encryptX, xorShares]
    split <;> simp
  rw [this, revealX_xorShares, h0, revealX_apply, xsum_single]
  simp

theorem sat_encryptA [NeZero n] (src : Fin n) (x : Tensor ι) : SatX (Proto.encryptA src x) fun z => reveal z = x := by
  refine fun T hT c => ⟨trivial, ?_⟩
  funext i
  have h0 := hT.zeroA c ι i
  have : (Proto.encryptA src x T c).val = addShares (T.zeroA c ι) (fun p => if p = src then x else 0) := by
    funext p
    simp only [Proto.encryptA, addShares]
    split <;> simp
  rw [this, reveal_addShares, Pi.add_apply, h0, zero_add, reveal, Finset.sum_ite_eq', if_pos (Finset.mem_univ _)]

theorem sat_b2aBit [NeZero n] (x : Shares n ι) (b : ι → Bool) (hb : ∀ i, revealX x i = boolI64 (b i)) :
    SatX (Proto.b2aBit x) fun z => ∀ i, reveal z i = boolI64 (b i) :=
  fun _ hT c => ⟨trivial, fun i => C12_b2a_single_bit _ (hT.b2a c ι) x i (b i) (hb i)⟩

end CrypTen
