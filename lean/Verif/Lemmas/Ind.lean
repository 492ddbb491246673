import Verif.Model.KE
namespace GPyABCD
namespace KE

/-- Induction over expressions with the hypothesis for every composite term. -/
@[elab_as_elim]
theorem ind {P : KE → Prop} (k : KE) (base : ∀ b, P (base b))
    (comm : ∀ o c cs, (∀ k ∈ cs, P k) → P (comm o c cs))
    (change : ∀ c l r, P l → P r → P (change c l r)) : P k :=
  KE.rec (motive_1 := P) (motive_2 := fun ks => ∀ k ∈ ks, P k) base comm change
    (by simp) (fun x xs hx hxs k hk => by
      rcases List.mem_cons.1 hk with rfl | h
      · exact hx
      · exact hxs k h) k

end KE
end GPyABCD
