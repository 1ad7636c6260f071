import Verif.Lemmas.BucketValidate
import Verif.Lemmas.DeltaTwist
import Verif.Lemmas.DGNF
/-!
# The lemmas about `bucketing.Tracker` apply to `GNF` and to `DGNF`
-/
namespace Peyl
open LaurentPolynomial Polymat Perms

theorem NFReal.extend {W T : Type} [Group W] {n : Nat} {tbl : Nat → Except Err (NFTable T)} {t : NFTable T} {g : Germ W} {v : Nat → W} {β : W → Braid n}
    (R : NFReal tbl n t g v β) (hD : ∀ s, g.atom s → s ≠ g.D) (hat : ∃ s, g.atom s ∧ g.P s) {x : NF} (hx : NFReal.Valid t n x) (h0 : x.power = 0)
    (hne : x.factors ≠ []) (k : Nat) : ∃ w : List Nat, w.length = k ∧ NFReal.Valid t n ⟨n, 0, x.factors ++ w⟩ := by
  have hm := List.getLast_mem hne
  obtain ⟨w, -, w2, w3, w4, w5⟩ := R.sampleLoop_spec hD hat (fun _ => 0) k 0 (hx.inR _ hm) ((R.valid_iff.1 hx).2.2.2 _ hm).1
  refine ⟨w, w2, R.valid_iff.2 ⟨rfl, ?_, ?_, ?_⟩⟩
  · simpa [TableSpec.InR_append] using ⟨hx.inR, w3⟩
  · rw [List.map_append, NFReal.nrm_append_last]
    refine ⟨(R.valid_iff.1 hx).2.2.1, ?_⟩
    rw [List.getLast?_map, List.getLast?_eq_some_getLast hne]
    exact w4
  · intro f hf
    rcases List.mem_append.1 hf with hf | hf
    · exact (R.valid_iff.1 hx).2.2.2 f hf
    · exact w5 f hf

theorem NFReal.extend_two {W T : Type} [Group W] {n : Nat} {tbl : Nat → Except Err (NFTable T)} {t : NFTable T} {g : Germ W} {v : Nat → W} {β : W → Braid n}
    (R : NFReal tbl n t g v β) (h2 : t.order = 2) {x : NF} (hx : NFReal.Valid t n x) : x.factors = [] := by
  by_contra hne
  obtain ⟨f, hf⟩ := List.exists_mem_of_ne_nil _ hne
  have h := (R.valid_iff.1 hx).2.2.2 f hf
  have h1 := hx.inR f hf
  have h3 := R.spec.id_lt
  have h4 := R.spec.D_lt
  have h5 : t.D ≠ t.id := by rw [Ne, R.spec.id_eq R.spec.D_lt, R.spec.v_D]; exact R.spec.D_ne
  omega

namespace Bucketing
variable {d : Nat} {rep : RepBase d} {ρ : Braid rep.n →* LMat rep.p d} {c : Config NF d}

theorem gnf_ctx (lim : Nat) (ω : List Nat → List Nat → Nat → Nat) (hn : 2 ≤ rep.n) (hl : rep.n < lim) (U : SetUp rep ρ c) :
    ∃ t, Ctx rep ρ (GNF.tbl lim ω) t (permGerm rep.n) (permAt rep.n) lift c ∧ Lg t rep.n = GLegal lim ω rep.n ∧
      Mt ρ (permGerm rep.n) (permAt rep.n) lift = GMat ρ := by
  obtain ⟨t, R⟩ := exists_greal lim ω hn hl
  have hdl : t.divs.length = t.order := by rw [R.2.2.1, R.2.1, elements_length]
  refine ⟨t, ⟨R.1, U.real, U.dim, U.ring, ?_, ?_, ?_, ?_, U.total, U.length, U.capacity⟩, ?_, ?_⟩
  · obtain ⟨k, hk⟩ := U.twist
    exact ⟨k, by rw [R.tauOrder]; exact hk⟩
  · intro f hf
    exact ⟨_, lookup_lt (by omega)⟩
  · intro f f' δ hf hf' h h'
    rw [lookup_lt (by omega)] at h h'
    have hnd : t.divs.Nodup := by rw [R.2.2.1]; exact elements_nodup _
    exact (List.Nodup.getElem_inj_iff hnd).1 (by injection h with h; injection h' with h'; rw [h, h'])
  · intro x hx h0 hne k
    rcases Nat.lt_or_ge rep.n 3 with h3 | h3
    · exact absurd (R.1.extend_two (by rw [R.2.1, show rep.n = 2 by omega]; rfl) hx) hne
    · exact R.1.extend (by rintro s ⟨i, hi, rfl⟩ e; exact sg_ne_w0 h3 hi e) ⟨sg rep.n 0, permGerm_atom (by omega), permGerm_P _⟩ hx h0 hne k
  · funext x
    exact propext (by rw [Lg, GLegal, R.isGNF_iff])
  · funext x
    rw [Mt, GMat, R.den_eq]

theorem dgnf_ctx (lim : Nat) (ω : NPar → NPar → Nat → Nat) (hn : 2 ≤ rep.n) (hl : NPar.catalanNum rep.n < lim) (U : SetUp rep ρ c) :
    ∃ t, Ctx rep ρ (DGNF.tbl lim ω) t (nparGerm rep.n) (nparAt rep.n) dlift c ∧ Lg t rep.n = DLegal lim ω rep.n ∧
      Mt ρ (nparGerm rep.n) (nparAt rep.n) dlift = DMat ρ := by
  obtain ⟨l, t, R⟩ := dgnf_real lim ω hn hl
  have hdl : t.divs.length = t.order := by rw [R.data.divs, R.data.order, R.nl.length]
  refine ⟨t.toNFTable, ⟨R.real, U.real, U.dim, U.ring, ?_, ?_, ?_, ?_, U.total, U.length, U.capacity⟩, ?_, ?_⟩
  · obtain ⟨k, hk⟩ := U.twist
    refine ⟨k, ?_⟩
    rw [← hk, ← delta_pow (by omega), R.data.tauOrder]; rfl
  · intro f hf
    exact ⟨_, lookup_lt (by omega)⟩
  · intro f f' δ hf hf' h h'
    rw [lookup_lt (by omega)] at h h'
    have hnd : t.divs.Nodup := by rw [R.data.divs]; exact R.nl.nodup
    exact (List.Nodup.getElem_inj_iff hnd).1 (by injection h with h; injection h' with h'; rw [h, h'])
  · intro x hx h0 hne k
    rcases Nat.lt_or_ge rep.n 3 with h3 | h3
    · exact absurd (R.real.extend_two (by rw [R.data.order, show rep.n = 2 by omega]; rfl) hx) hne
    · have h01 : ((⟨0, by omega⟩ : Fin rep.n), (⟨1, by omega⟩ : Fin rep.n)).1 < ((⟨0, by omega⟩ : Fin rep.n), (⟨1, by omega⟩ : Fin rep.n)).2 := by simp [Fin.lt_def]
      exact R.real.extend (by rintro s ⟨p, hp, rfl⟩ e; exact tr_ne_D h3 hp e) ⟨tr _, npar_atoms.1 _ h01, nparGerm_P.2 (ncp_tr h01)⟩ hx h0 hne k
  · funext x
    exact propext (by rw [Lg, DLegal, R.isDGNF_iff])
  · funext x
    rw [Mt, DMat, R.den_eq]

end Bucketing
end Peyl
