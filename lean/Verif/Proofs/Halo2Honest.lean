import Verif.Proofs.Halo2Complete
import Verif.Props.GrandProduct
import Verif.Props.LookupArgument
/-! What the code computes for a good witness satisfies the constraints of the arguments. -/
namespace Tachyon.Halo2
open Tachyon.FFT Tachyon.Poly Tachyon.Vanishing Tachyon.Plonk Tachyon.GrandProduct
open Tachyon.CircuitPoly (System ProvingKey onRows rowTable compressRows)

variable {P F : Type} [Field F] [LinearOrder F]

omit [LinearOrder F] in
theorem compressRows_take {t : Table F} {n u : ℕ} (hu : u ≤ n) (θ : F) (es : List (Expr F)) : (compressRows t n θ es).take u =
    ((List.range u).map fun j : ℕ => es.map (rowValue t (j : ℕ) 1 n)).map (CircuitPoly.combination θ) := by
  rw [compressRows, ← List.map_take, List.take_range, min_eq_left hu, List.map_map]
  rfl

theorem satisfies_of_honest {env : Env P F} {s : Shape} {sys : System F} {key : Key F} {pk : ProvingKey F} {delta : F} {d : Held F} {i : ℕ}
    (hfits : (d.circuit s key i).Fits sys env.domain.size s.degree) (hdeg : 3 ≤ s.degree) (hsz : env.domain.size ≤ 2 ^ 30)
    (hcols : sys.columns.length < 2 ^ 64) (hb : s.blinding + 2 ≤ env.domain.size) (h : d.Honest env s sys key pk delta i) :
    d.Satisfies env s sys key pk delta i := by
  have hn : env.domain.size < 2 ^ 32 := by omega
  refine ⟨h.gates, fun hp => ?_, fun m a l ha hl => ?_, fun m a z ha hz => ?_⟩
  · obtain ⟨threads, ps, store, rnd, k, k', z, ht, ht', hps, hcopy, hrun, hgen, hcreate, hne⟩ := h.permutation
    have hc0 : 0 < sys.columns.length := by
      by_contra h0
      apply hp
      rw [← List.length_eq_zero_iff, hfits.sets, show sys.columns.length = 0 by omega, chunkNum]
      exact Nat.div_eq_of_lt (by omega)
    obtain ⟨store', P', zs, k'', e1, e2, e3, e4⟩ := Props.C66_complete threads env.domain.size s.blinding sys.columns.length (s.degree - 2)
      ht ht' (by omega) hn (by omega) hc0 hcols rnd k env.domain.gen delta d.beta d.gamma ps hps _
      ⟨by rw [List.length_map], by
        intro col hcol
        obtain ⟨q, hq, rfl⟩ := List.mem_map.1 hcol
        have hk := hfits.keys q hq
        rw [CircuitPoly.rowTable_columns, List.getD_eq_getElem _ _ (by simpa using hk), List.getElem_map, onRows, List.length_map,
          List.length_range]⟩ hcopy hne
    obtain rfl : store' = store := Option.some_inj.1 (e1.symm.trans hrun)
    obtain rfl := Option.some_inj.1 (e2.symm.trans hgen)
    rw [hcreate, Option.some_inj, Prod.mk.injEq] at e3
    rw [← e3.1] at e4
    exact e4
  · obtain ⟨h1, h2, h3, rnd, k, k', z, h4, h5⟩ := h.lookups m a l ha hl
    have hlen : ∀ es, (compressRows (rowTable env.domain.gen env.domain.size (d.circuit s key i).polys) env.domain.size d.theta es).length =
        env.domain.size := fun es => by rw [compressRows, List.length_map, List.length_range]
    obtain ⟨A, S, z', e1, e2, e3⟩ := Props.C67_complete rnd env.domain.size s.blinding k d.beta d.gamma
      (compressRows (rowTable env.domain.gen env.domain.size (d.circuit s key i).polys) env.domain.size d.theta a.inputs)
      (compressRows (rowTable env.domain.gen env.domain.size (d.circuit s key i).polys) env.domain.size d.theta a.targets)
      (by omega) hn (hlen _) (hlen _) (by
        intro x hx
        rw [compressRows_take (by omega), List.mem_map] at hx ⊢
        obtain ⟨y, hy, rfl⟩ := hx
        obtain ⟨j, hj, rfl⟩ := List.mem_map.1 hy
        obtain ⟨j', hj', e⟩ := h1 j (List.mem_range.1 hj)
        exact ⟨_, List.mem_map.2 ⟨j', List.mem_range.2 hj', rfl⟩, by rw [e]⟩) (by omega) h2 h3
    rw [h4, Option.some_inj, Option.some_inj, Prod.mk.injEq] at e1
    obtain ⟨rfl, rfl⟩ := e1
    rw [h5, Option.some_inj, Prod.mk.injEq] at e2
    obtain ⟨rfl, -⟩ := e2
    exact e3
  · obtain ⟨h1, h2, rnd, k, k', z', h3⟩ := h.shuffles m a z ha hz
    have hlen : ∀ es, (compressRows (rowTable env.domain.gen env.domain.size (d.circuit s key i).polys) env.domain.size d.theta es).length =
        env.domain.size := fun es => by rw [compressRows, List.length_map, List.length_range]
    obtain ⟨z'', e1, e2⟩ := Props.C68_complete rnd env.domain.size s.blinding k d.gamma
      (compressRows (rowTable env.domain.gen env.domain.size (d.circuit s key i).polys) env.domain.size d.theta a.inputs)
      (compressRows (rowTable env.domain.gen env.domain.size (d.circuit s key i).polys) env.domain.size d.theta a.targets)
      (by omega) hn (hlen _) (hlen _) (by
        rw [compressRows_take (by omega), compressRows_take (by omega)]
        exact h1.map _) h2
    rw [h3, Option.some_inj, Prod.mk.injEq] at e1
    obtain ⟨rfl, -⟩ := e1
    exact e2

end Tachyon.Halo2
