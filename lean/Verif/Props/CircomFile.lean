import Verif.Proofs.CircomFile
/-! C98: the parsers of circom's files accept exactly the files of the format, and what they return is what the file says. -/
namespace Tachyon.Props
open Tachyon.Buffer Tachyon.CircomFile

deriving instance DecidableEq for Wtns

variable {F G1 G2 : Type} {env : Env} {ty : Types F G1 G2} {data : List Byte}

/-- Files of witnesses: the parser returns exactly what the file contains. -/
theorem C98_wtns (hh : env.hostBig = false) (hm : 2 ^ 32 ≤ env.maxSize + 1) (hl : data.length < 2 ^ 64) (hs : ty.sizeF < 2 ^ 32)
    (w : Wtns F) : parseWtns env ty data = some (some w) ↔ IsWtns ty data w := by
  rw [parseWtns, readWtns, parse_sections hh hm rfl (by decide) hl fun l off =>
    move_read (reads_wtnsHeader hh hm) hl (P := fun h => ∃ es : List (List Byte), es.length = h.2 ∧ HoldsAll data l 2 ty.sizeF es ∧
      w = ⟨h.1, h.2, es.map fun e => ty.fr (ofBytesLE e)⟩) (fun h bs hD off => by
        rw [readWtnsData, bindR_assoc]
        exact move_ptr (ptr_lt hs hD.1.2) hl (fun es off => pure_ex off) off) off]
  constructor
  · rintro ⟨l, hb, h, _, ⟨⟨h1, h2⟩, rfl⟩, h3, es, h4, h5, rfl⟩
    exact ⟨l, es, hb, h1, h2, h3, h4, h5, rfl⟩
  · rintro ⟨l, es, hb, h1, h2, h3, h4, h5, h6⟩
    exact ⟨l, hb, (w.modulus, w.numWitness), _, ⟨⟨h1, h2⟩, rfl⟩, h3, es, h4, h5, by rw [← h6]⟩

/-- Files with a constraint system. -/
theorem C98_r1cs (hh : env.hostBig = false) (hm : 2 ^ 32 ≤ env.maxSize + 1) (hl : data.length < 2 ^ 64) (r : R1csFile F) :
    parseR1cs env ty data = some (some r) ↔ IsR1cs ty data r := by
  rw [parseR1cs, readR1cs, parse_sections hh hm rfl (by norm_num) hl fun l off =>
    move_read (reads_r1csHeader hh hm) hl (P := fun h => ∃ a bs,
        (∃ cs : List RawConstraint, (cs.length = h.numConstraints ∧ ∀ c ∈ cs, RawConstraint.Ok ty.sizeF c) ∧
          a = cs.map (RawConstraint.constraint ty) ∧ bs = cs.flatMap RawConstraint.enc) ∧ Holds data l 2 bs ∧
        ∃ ls bs', (∃ xs : List ℕ, (xs.length = h.numWires ∧ ∀ x ∈ xs, x < 256 ^ 8) ∧ ls = xs.map id ∧ bs' = xs.flatMap (digits 8)) ∧
          Holds data l 3 bs' ∧ r = ⟨h, a, ls⟩) (fun h bs hD off => by
        have hc := hD.1.constraints
        have hw := hD.1.wires
        rw [resize_eq (by omega), resize_eq (by omega)]
        exact move_read (reads_readN (enc_constraint hh hm) strict_constraint (fun c _ => constraint_ne c) _) hl (fun a bs _ off =>
          move_read (reads_readN (enc_num hh 8) (strict_num 8) (fun x _ h => by
            have := congrArg List.length h; rw [length_digits] at this; simp at this) _) hl
            (fun ls bs' _ off => pure_ex off) off) off) off]
  constructor
  · rintro ⟨l, hb, h, _, ⟨h1, rfl⟩, h2, _, _, ⟨cs, ⟨h3, h4⟩, rfl, rfl⟩, h5, _, _, ⟨xs, ⟨h6, h7⟩, rfl, rfl⟩, h8, rfl⟩
    exact ⟨l, cs, hb, h1, h2, h3, h4, h5, rfl, by simpa using h6, by simpa using h7, by simpa using h8⟩
  · rintro ⟨l, cs, hb, h1, h2, h3, h4, h5, h6, h7, h8, h9⟩
    exact ⟨l, hb, r.header, _, ⟨h1, rfl⟩, h2, _, _, ⟨cs, ⟨h3, h4⟩, rfl, rfl⟩, h5, _, _,
      ⟨r.labels, ⟨h7, fun x hx => by simpa using h8 x hx⟩, (List.map_id _).symm, rfl⟩, h9, by rw [← h6]⟩

/-- Files with a key. -/
theorem C98_zkey (hh : env.hostBig = false) (hm : 2 ^ 32 ≤ env.maxSize + 1) (hl : data.length < 2 ^ 64) (hs : 12 + ty.sizeF < 2 ^ 32)
    (h1 : ty.sizeG1 < 2 ^ 32) (h2 : ty.sizeG2 < 2 ^ 32) (z : ZKeyFile F G1 G2) :
    parseZKey env ty data = some (some z) ↔ IsZKey ty data z := by
  rw [parseZKey, readZKey, parse_sections hh hm rfl (by norm_num) hl fun l off =>
    move_read (reads_zkeyHeader hh) hl (fun _ _ _ off =>
      move_read (reads_grothHeader hh hm (by omega) (by omega)) hl (P := fun h => ∃ ic, HoldsPoints data l 3 ty.sizeG1 ty.g1 ((h.numPublic + 1) % 2 ^ 32) ic ∧
        ∃ c bs, (∃ cs : List RawCoeff, (cs.length < 2 ^ 32 ∧ ∀ c ∈ cs, RawCoeff.Ok ty.sizeF c) ∧
          c = cs.map (RawCoeff.coeff ty) ∧ bs = digits 4 cs.length ++ cs.flatMap RawCoeff.enc) ∧ Holds data l 4 bs ∧
        ∃ a1, HoldsPoints data l 5 ty.sizeG1 ty.g1 h.numVars a1 ∧ ∃ b1, HoldsPoints data l 6 ty.sizeG1 ty.g1 h.numVars b1 ∧
        ∃ b2, HoldsPoints data l 7 ty.sizeG2 ty.g2 h.numVars b2 ∧
        ∃ c1, HoldsPoints data l 8 ty.sizeG1 ty.g1 ((h.numVars + 2 ^ 33 - h.numPublic - 1) % 2 ^ 32) c1 ∧
        ∃ h1, HoldsPoints data l 9 ty.sizeG1 ty.g1 h.domainSize h1 ∧ z = ⟨h, ic, c, a1, b1, b2, c1, h1⟩) (fun h bs hD off => by
        obtain ⟨rh, hok, rfl, -⟩ := hD
        have hv : (rh.header ty).numVars < 2 ^ 32 := hok.vars
        have hd : (rh.header ty).domainSize < 2 ^ 32 := hok.domain
        exact move_points h1 (Nat.mod_lt _ (by norm_num)) hl (fun ic off =>
          move_read (reads_coefficients hh hs) hl (fun cs _ _ off =>
          move_points h1 hv hl (fun a1 off => move_points h1 hv hl (fun b1 off => move_points h2 hv hl (fun b2 off =>
          move_points h1 (Nat.mod_lt _ (by norm_num)) hl (fun c1 off => move_points h1 hd hl (fun h1 off =>
            pure_ex off) off) off) off) off) off) off) off) off) off]
  have e : ∀ h : RawHeader, h.Ok ty → (h.numVars + 2 ^ 33 - h.numPublic - 1) % 2 ^ 32 =
      ((h.numVars - h.numPublic - 1 : ℤ) % 2 ^ 32).toNat := fun h hk => by
    have := hk.vars
    have := hk.pub
    omega
  constructor
  · rintro ⟨l, hb, -, _, rfl, k1, _, _, ⟨h, hok, rfl, rfl⟩, k2, ic, k3, _, _, ⟨cs, ⟨k4, k5⟩, rfl, rfl⟩, k6, a1, k7, b1, k8, b2, k9, c1, k10,
      h1, k11, rfl⟩
    exact ⟨l, h, cs, hb, k1, hok, k2, rfl, k3, ⟨k4, k5, k6, rfl⟩, k7, k8, k9, by rw [← e h hok]; exact k10, k11⟩
  · rintro ⟨l, h, cs, hb, k1, hok, k2, e0, k3, ⟨k4, k5, k6, e1⟩, k7, k8, k9, k10, k11⟩
    rw [← e h hok] at k10
    refine ⟨l, hb, (), _, rfl, k1, _, _, ⟨h, hok, rfl, rfl⟩, k2, _, k3, _, _, ⟨cs, ⟨k4, k5⟩, rfl, rfl⟩, k6, _, k7, _, k8, _, k9, _, k10,
      _, k11, ?_⟩
    rw [← e0, ← e1]

/-- A null pointer is returned exactly for a wrong word or version (or no room for them); every other file which is not of the
format ends the program (`CHECK`), although "Return nullptr if the parser failed to parse" is said of all. -/
theorem C98_nullptr (hh : env.hostBig = false) (hl : data.length < 2 ^ 64) :
    (parseWtns env ty data = some none ↔ ¬ [0x77#8, 0x74#8, 0x6e#8, 0x73#8] ++ digits 4 2 <+: data) ∧
    (parseR1cs env ty data = some none ↔ ¬ [0x72#8, 0x31#8, 0x63#8, 0x73#8] ++ digits 4 1 <+: data) ∧
    (parseZKey env ty data = some none ↔ ¬ [0x7a#8, 0x6b#8, 0x65#8, 0x79#8] ++ digits 4 1 <+: data) :=
  ⟨(parse_iff hh rfl (by decide) hl).2, (parse_iff hh rfl (by norm_num) hl).2, (parse_iff hh rfl (by norm_num) hl).2⟩

/-- Behind word and version, no bytes lead to undefined behaviour: every reader returns, wherever the buffer stands. -/
theorem C98_safe (hm : 2 ^ 32 ≤ env.maxSize + 1) (hs : 12 + ty.sizeF < 2 ^ 32) (h1 : ty.sizeG1 < 2 ^ 32) (h2 : ty.sizeG2 < 2 ^ 32)
    (b : Buf) : readWtns env ty b ≠ none ∧ readR1cs env ty b ≠ none ∧ readZKey env ty b ≠ none := by
  obtain ⟨o, b', e, -⟩ := tot_wtns (ty := ty) hm (by omega) b
  obtain ⟨o2, b2, e2, -⟩ := tot_r1cs (ty := ty) hm b
  obtain ⟨o3, b3, e3, -⟩ := tot_zkey (ty := ty) hm hs h1 h2 b
  rw [e, e2, e3]
  simp

/-- Files made of sections: whatever their order and whatever else there is, the parser finds them, and it looks for the contents
in the first section of a type. -/
theorem C98_file {magic : List Byte} {version : ℕ} (hm : magic.length = 4) {secs : List (ℕ × List Byte)} (h : SecsOk secs) :
    ∃ l, Begins (file magic version secs) magic version l ∧
      (∀ t bs, Section1 secs t bs → Holds (file magic version secs) l t bs) ∧
      ∀ t size es, (∀ e ∈ es, e.length = size) → Section1 secs t es.flatten → HoldsAll (file magic version secs) l t size es := by
  have hd : (file magic version secs).drop 12 = secs.flatMap encSection := by
    rw [file, List.drop_left' (by simp [length_digits, hm])]
  have hf : ∀ t bs, Section1 secs t bs → ∃ s, (secsAt 12 secs).find? (fun s => decide (s.type = t)) = some s ∧
      s.start ≤ (file magic version secs).length ∧ bs <+: (file magic version secs).drop s.start := fun t bs ⟨s, h1, h2⟩ => by
    obtain ⟨s', k1, k2, k3⟩ := find_secsAt secs 12 hd h1
    exact ⟨s', k1, k3, h2.trans k2⟩
  refine ⟨secsAt 12 secs, ⟨?_, ?_, walk_secsAt secs 12 hd h.types h.size⟩, fun t bs hb => ?_, fun t size es he hb => ?_⟩
  · rw [length_secsAt]; exact h.count
  · rw [length_secsAt]; exact ⟨_, rfl⟩
  · obtain ⟨s, k1, -, k2⟩ := hf t bs hb
    exact ⟨s, k1, k2⟩
  · obtain ⟨s, k1, k2, k3⟩ := hf t _ hb
    exact ⟨he, s, k1, k2, k3⟩

theorem length_file {magic : List Byte} {version : ℕ} (hm : magic.length = 4) {secs : List (ℕ × List Byte)} (h : SecsOk secs) :
    (file magic version secs).length < 2 ^ 64 := by
  have := h.size
  simp only [file, List.length_append, length_digits, hm]
  omega

/-- A written file of witnesses is read back. -/
theorem C98_wtns_file (hh : env.hostBig = false) (hm : 2 ^ 32 ≤ env.maxSize + 1) (hs : ty.sizeF < 2 ^ 32) {secs : List (ℕ × List Byte)}
    (h : SecsOk secs) {modulus : List Byte} (hmod : ModOk modulus) {es : List (List Byte)} (he : ∀ e ∈ es, e.length = ty.sizeF)
    (hn : es.length < 2 ^ 32) (h1 : Section1 secs 1 (encMod modulus ++ digits 4 es.length)) (h2 : Section1 secs 2 es.flatten) :
    parseWtns env ty (file [0x77#8, 0x74#8, 0x6e#8, 0x73#8] 2 secs) =
      some (some ⟨modulus, es.length, es.map fun e => ty.fr (ofBytesLE e)⟩) := by
  obtain ⟨l, hb, k1, k2⟩ := C98_file (magic := [0x77#8, 0x74#8, 0x6e#8, 0x73#8]) (version := 2) rfl h
  exact (C98_wtns hh hm (length_file rfl h) hs _).2 ⟨l, es, hb, hmod, hn, k1 1 _ h1, rfl, k2 2 _ _ he h2, rfl⟩

/-- A written constraint system is read back. -/
theorem C98_r1cs_file (hh : env.hostBig = false) (hm : 2 ^ 32 ≤ env.maxSize + 1) {secs : List (ℕ × List Byte)} (h : SecsOk secs)
    {hd : R1csHeader} (hok : hd.Ok) {cs : List RawConstraint} (hc : ∀ c ∈ cs, RawConstraint.Ok ty.sizeF c)
    (hn : cs.length = hd.numConstraints) {ls : List ℕ} (hl : ls.length = hd.numWires) (hlt : ∀ x ∈ ls, x < 2 ^ 64)
    (h1 : Section1 secs 1 hd.enc) (h2 : Section1 secs 2 (cs.flatMap RawConstraint.enc)) (h3 : Section1 secs 3 (ls.flatMap (digits 8))) :
    parseR1cs env ty (file [0x72#8, 0x31#8, 0x63#8, 0x73#8] 1 secs) =
      some (some ⟨hd, cs.map (RawConstraint.constraint ty), ls⟩) := by
  obtain ⟨l, hb, k1, -⟩ := C98_file (magic := [0x72#8, 0x31#8, 0x63#8, 0x73#8]) (version := 1) rfl h
  exact (C98_r1cs hh hm (length_file rfl h) _).2 ⟨l, cs, hb, hok, k1 1 _ h1, hn, hc, k1 2 _ h2, rfl, hl, hlt, k1 3 _ h3⟩

/-- A written key is read back; the circuit has the variable one, `numPublic` public variables and `k` private ones. -/
theorem C98_zkey_file (hh : env.hostBig = false) (hm : 2 ^ 32 ≤ env.maxSize + 1) (hs : 12 + ty.sizeF < 2 ^ 32)
    (hs1 : ty.sizeG1 < 2 ^ 32) (hs2 : ty.sizeG2 < 2 ^ 32) {secs : List (ℕ × List Byte)} (h : SecsOk secs) {hd : RawHeader}
    (hok : hd.Ok ty) {cs : List RawCoeff} (hc : ∀ c ∈ cs, c.Ok ty.sizeF) (hn : cs.length < 2 ^ 32) {k : ℕ}
    (hk : hd.numVars = 1 + hd.numPublic + k) {ic a1 b1 b2 c1 h1 : List (List Byte)}
    (e3 : ∀ e ∈ ic, e.length = ty.sizeG1) (e5 : ∀ e ∈ a1, e.length = ty.sizeG1) (e6 : ∀ e ∈ b1, e.length = ty.sizeG1)
    (e7 : ∀ e ∈ b2, e.length = ty.sizeG2) (e8 : ∀ e ∈ c1, e.length = ty.sizeG1) (e9 : ∀ e ∈ h1, e.length = ty.sizeG1)
    (l3 : ic.length = hd.numPublic + 1) (l5 : a1.length = hd.numVars) (l6 : b1.length = hd.numVars) (l7 : b2.length = hd.numVars)
    (l8 : c1.length = k) (l9 : h1.length = hd.domainSize) (s1 : Section1 secs 1 (digits 4 1)) (s2 : Section1 secs 2 hd.enc)
    (s3 : Section1 secs 3 ic.flatten) (s4 : Section1 secs 4 (digits 4 cs.length ++ cs.flatMap RawCoeff.enc))
    (s5 : Section1 secs 5 a1.flatten) (s6 : Section1 secs 6 b1.flatten) (s7 : Section1 secs 7 b2.flatten)
    (s8 : Section1 secs 8 c1.flatten) (s9 : Section1 secs 9 h1.flatten) :
    parseZKey env ty (file [0x7a#8, 0x6b#8, 0x65#8, 0x79#8] 1 secs) = some (some ⟨hd.header ty, ic.map ty.g1,
      cs.map (RawCoeff.coeff ty), a1.map ty.g1, b1.map ty.g1, b2.map ty.g2, c1.map ty.g1, h1.map ty.g1⟩) := by
  obtain ⟨l, hb, k1, k2⟩ := C98_file (magic := [0x7a#8, 0x6b#8, 0x65#8, 0x79#8]) (version := 1) rfl h
  have hv := hok.vars
  refine (C98_zkey hh hm (length_file rfl h) hs hs1 hs2 _).2 ⟨l, hd, cs, hb, k1 1 _ s1, hok, k1 2 _ s2, rfl,
    ⟨ic, ?_, k2 3 _ _ e3 s3, rfl⟩, ⟨hn, hc, k1 4 _ s4, rfl⟩, ⟨a1, l5, k2 5 _ _ e5 s5, rfl⟩, ⟨b1, l6, k2 6 _ _ e6 s6, rfl⟩,
    ⟨b2, l7, k2 7 _ _ e7 s7, rfl⟩, ⟨c1, ?_, k2 8 _ _ e8 s8, rfl⟩, ⟨h1, l9, k2 9 _ _ e9 s9, rfl⟩⟩
  · omega
  · omega

/-- The bytes of the elements of the types. -/
structure Bytes (ty : Types F G1 G2) (f f' : F → List Byte) (p1 : G1 → List Byte) (p2 : G2 → List Byte) : Prop where
  f_len : ∀ v, (f v).length = ty.sizeF
  f_val : ∀ v, ty.fr (ofBytesLE (f v)) = v
  z_len : ∀ v, (f' v).length = ty.sizeF
  z_val : ∀ v, ty.frZkey (ofBytesLE (f' v)) = v
  p1_len : ∀ p, (p1 p).length = ty.sizeG1
  p1_val : ∀ p, ty.g1 (p1 p) = p
  p2_len : ∀ p, (p2 p).length = ty.sizeG2
  p2_val : ∀ p, ty.g2 (p2 p) = p

/-- From files to the arguments of the prover: if the files contain the bytes of a key and of the values of the variables, these
are what the prover gets. -/
theorem C98_prover (hh : env.hostBig = false) (hm : 2 ^ 32 ≤ env.maxSize + 1) (hs : 12 + ty.sizeF < 2 ^ 32)
    (hs1 : ty.sizeG1 < 2 ^ 32) (hs2 : ty.sizeG2 < 2 ^ 32) {f f' : F → List Byte} {p1 : G1 → List Byte} {p2 : G2 → List Byte}
    (hB : Bytes ty f f' p1 p2) {key : Circom.ZKey F G1 G2} {q r : List Byte} (hq : ModOk q) (hr : ModOk r) {n : ℕ}
    (hn : 1 + n = key.numInst) (hv : key.numInst + key.pk.c.length < 2 ^ 32) (hd : key.domainSize < 2 ^ 32)
    (hc : key.coefficients.length < 2 ^ 32) (hcs : ∀ c ∈ key.coefficients, c.matrix < 2 ^ 32 ∧ c.constraint < 2 ^ 32 ∧ c.signal < 2 ^ 32)
    (l3 : key.pk.ic.length = key.numInst) (l5 : key.pk.a.length = key.numInst + key.pk.c.length)
    (l6 : key.pk.b1.length = key.numInst + key.pk.c.length) (l7 : key.pk.b2.length = key.numInst + key.pk.c.length)
    (l9 : key.pk.h.length = key.domainSize) {secs : List (ℕ × List Byte)} (h : SecsOk secs)
    (s1 : Section1 secs 1 (digits 4 1)) (s2 : Section1 secs 2 (RawHeader.enc ⟨q, r, key.numInst + key.pk.c.length, n, key.domainSize,
      p1 key.pk.alphaG1, p1 key.pk.betaG1, p2 key.pk.betaG2, p2 key.pk.gammaG2, p1 key.pk.deltaG1, p2 key.pk.deltaG2⟩))
    (s3 : Section1 secs 3 (key.pk.ic.flatMap p1)) (s4 : Section1 secs 4 (digits 4 key.coefficients.length ++ key.coefficients.flatMap
      fun c => RawCoeff.enc ⟨c.matrix, c.constraint, c.signal, f' c.value⟩))
    (s5 : Section1 secs 5 (key.pk.a.flatMap p1)) (s6 : Section1 secs 6 (key.pk.b1.flatMap p1))
    (s7 : Section1 secs 7 (key.pk.b2.flatMap p2)) (s8 : Section1 secs 8 (key.pk.c.flatMap p1))
    (s9 : Section1 secs 9 (key.pk.h.flatMap p1)) {full : List F} (hfull : full.length < 2 ^ 32) {wsecs : List (ℕ × List Byte)}
    (hw : SecsOk wsecs) (w1 : Section1 wsecs 1 (encMod r ++ digits 4 full.length)) (w2 : Section1 wsecs 2 (full.flatMap f)) :
    (parseZKey env ty (file [0x7a#8, 0x6b#8, 0x65#8, 0x79#8] 1 secs)).map (Option.map ZKeyFile.key) = some (some key) ∧
      (parseWtns env ty (file [0x77#8, 0x74#8, 0x6e#8, 0x73#8] 2 wsecs)).map (Option.map Wtns.witnesses) = some (some full) := by
  have m1 : ∀ l : List G1, (l.map p1).map ty.g1 = l := fun l => by
    rw [List.map_map]; exact (List.map_congr_left fun p _ => hB.p1_val p).trans (List.map_id l)
  have m2 : ∀ l : List G2, (l.map p2).map ty.g2 = l := fun l => by
    rw [List.map_map]; exact (List.map_congr_left fun p _ => hB.p2_val p).trans (List.map_id l)
  have e1 : ∀ l : List G1, ∀ e ∈ l.map p1, e.length = ty.sizeG1 := fun l e he => by
    obtain ⟨p, -, rfl⟩ := List.mem_map.1 he; exact hB.p1_len p
  have e2 : ∀ l : List G2, ∀ e ∈ l.map p2, e.length = ty.sizeG2 := fun l e he => by
    obtain ⟨p, -, rfl⟩ := List.mem_map.1 he; exact hB.p2_len p
  rw [C98_zkey_file hh hm hs hs1 hs2 h (hd := ⟨q, r, key.numInst + key.pk.c.length, n, key.domainSize,
      p1 key.pk.alphaG1, p1 key.pk.betaG1, p2 key.pk.betaG2, p2 key.pk.gammaG2, p1 key.pk.deltaG1, p2 key.pk.deltaG2⟩)
    ⟨hq, hr, hv, show n < _ by omega, hd, hB.p1_len _, hB.p1_len _, hB.p2_len _, hB.p2_len _, hB.p1_len _, hB.p2_len _⟩
    (cs := key.coefficients.map fun c => ⟨c.matrix, c.constraint, c.signal, f' c.value⟩) (fun c hc' => by
      obtain ⟨c, hc2, rfl⟩ := List.mem_map.1 hc'
      obtain ⟨k1, k2, k3⟩ := hcs c hc2
      exact ⟨k1, k2, k3, hB.z_len _⟩) (by simpa using hc) (k := key.pk.c.length) (by simp only; omega)
    (ic := key.pk.ic.map p1) (a1 := key.pk.a.map p1) (b1 := key.pk.b1.map p1) (b2 := key.pk.b2.map p2) (c1 := key.pk.c.map p1)
    (h1 := key.pk.h.map p1) (e1 _) (e1 _) (e1 _) (e2 _) (e1 _) (e1 _) (by simp only [List.length_map]; omega)
    (by simp only [List.length_map]; omega) (by simp only [List.length_map]; omega) (by simp only [List.length_map]; omega)
    (by simp) (by simpa using l9) s1 s2 s3 (by simpa [List.flatMap_map] using s4) s5 s6 s7 s8 s9,
    C98_wtns_file hh hm (by omega) hw hr (es := full.map f) (fun e he => by
      obtain ⟨v, -, rfl⟩ := List.mem_map.1 he; exact hB.f_len v) (by simpa using hfull) (by simpa using w1) w2]
  refine ⟨?_, ?_⟩
  · have hcoeff : (key.coefficients.map fun c => (⟨c.matrix, c.constraint, c.signal, f' c.value⟩ : RawCoeff)).map (RawCoeff.coeff ty) =
        key.coefficients := by
      rw [List.map_map]
      conv_rhs => rw [← List.map_id key.coefficients]
      refine List.map_congr_left fun c _ => ?_
      simp [RawCoeff.coeff, hB.z_val]
    have hni : (n + 1) % 2 ^ 32 = key.numInst := by omega
    simp only [Option.map_some, ZKeyFile.key, RawHeader.header, m1, m2, hcoeff, hB.p1_val, hB.p2_val, hni]
  · rw [Option.map_some, Option.map_some, List.map_map]
    exact congrArg _ (congrArg _ ((List.map_congr_left fun v _ => hB.f_val v).trans (List.map_id full)))

/-- The size of a section is only used to find the next one: the contents may run over its end. Here the section of the witnesses
says it is empty. -/
theorem C98_size_ignored : ∃ (ty : Types ℕ Unit Unit) (env : Env), ∀ data, data = file [0x77#8, 0x74#8, 0x6e#8, 0x73#8] 2
    [(1, encMod [] ++ digits 4 1), (2, [])] ++ [5#8, 0, 0, 0, 0, 0, 0, 0] → parseWtns env ty data = some (some ⟨[], 1, [5]⟩) :=
  ⟨⟨8, 0, 0, id, id, fun _ => (), fun _ => ()⟩, ⟨false, 2 ^ 32⟩, by rintro _ rfl; decide +kernel⟩

/-- The position behind a section is taken in 64 bits: the header of one section may stand for many. Here
it stands for three. -/
theorem C98_size_wraps : ∃ (env : Env), ∀ data, data = [0x77#8, 0x74#8, 0x6e#8, 0x73#8] ++ digits 4 2 ++ digits 4 3 ++ digits 4 7 ++
    digits 8 (2 ^ 64 - 12) → ∃ b, readSections env ⟨data, 8, .little, false⟩ =
      some (some [⟨7, 24, 2 ^ 64 - 12⟩, ⟨7, 24, 2 ^ 64 - 12⟩, ⟨7, 24, 2 ^ 64 - 12⟩], b) :=
  ⟨⟨false, 2 ^ 32⟩, by
    rintro _ rfl
    refine ⟨⟨[0x77#8, 0x74#8, 0x6e#8, 0x73#8] ++ digits 4 2 ++ digits 4 3 ++ digits 4 7 ++ digits 8 (2 ^ 64 - 12), 12, .little, false⟩, ?_⟩
    decide +kernel⟩

/-- The number of instance variables is the sum of outputs and inputs and one exactly if this is a number of 32 bits. -/
theorem C98_instance (r : R1csFile F) : r.r1cs.numInst = 1 + r.header.numOutputs + r.header.numInputs ↔
    1 + r.header.numOutputs + r.header.numInputs < 2 ^ 32 := by
  show (1 + r.header.numOutputs + r.header.numInputs) % 2 ^ 32 = _ ↔ _
  omega

/-! Examples: one byte for an element of the field, one for a point. -/

def circomTypes : Types ℕ ℕ ℕ := ⟨1, 1, 1, id, id, fun l => ofBytesLE l, fun l => ofBytesLE l⟩

def circomEnv : Env := ⟨false, 2 ^ 32⟩

def wtnsSections : List (ℕ × List Byte) := [(2, [1#8, 7#8, 9#8]), (5, [1#8]), (1, encMod [13#8, 0, 0, 0, 0, 0, 0, 0] ++ digits 4 3), (1, [])]

theorem wtnsSections_ok : SecsOk wtnsSections := ⟨by decide, by decide, by decide +kernel⟩

example : parseWtns circomEnv circomTypes (file [0x77#8, 0x74#8, 0x6e#8, 0x73#8] 2 wtnsSections) =
    some (some ⟨[13#8, 0, 0, 0, 0, 0, 0, 0], 3, [1, 7, 9]⟩) :=
  C98_wtns_file (ty := circomTypes) rfl (by decide) (by decide) wtnsSections_ok (modulus := [13#8, 0, 0, 0, 0, 0, 0, 0]) ⟨by decide, by decide⟩
    (es := [[1#8], [7#8], [9#8]]) (by decide) (by decide) ⟨_, rfl, List.prefix_rfl⟩ ⟨_, rfl, List.prefix_rfl⟩

/-- One constraint `2 w₁ · w₂ = w₃` on four wires. -/
def circomHeader : R1csHeader := ⟨[13#8, 0, 0, 0, 0, 0, 0, 0], 4, 1, 0, 2, 4, 1⟩

def circomConstraint : RawConstraint := ⟨[⟨1, [2#8]⟩], [⟨2, [1#8]⟩], [⟨3, [1#8]⟩]⟩

example : parseR1cs circomEnv circomTypes (file [0x72#8, 0x31#8, 0x63#8, 0x73#8] 1
      [(1, circomHeader.enc), (2, [circomConstraint].flatMap RawConstraint.enc), (3, [0, 3, 1, 2].flatMap (digits 8))]) =
    some (some ⟨circomHeader, [⟨[⟨1, 2⟩], [⟨2, 1⟩], [⟨3, 1⟩]⟩], [0, 3, 1, 2]⟩) :=
  C98_r1cs_file (ty := circomTypes) rfl (by decide) ⟨by decide, by decide, by decide +kernel⟩ (hd := circomHeader)
    ⟨⟨by decide, by decide⟩, by decide, by decide, by decide, by decide, by decide, by decide⟩ (cs := [circomConstraint])
    (by unfold RawConstraint.Ok LCOk RawTerm.Ok; decide) rfl rfl (by decide) ⟨_, rfl, List.prefix_rfl⟩ ⟨_, rfl, List.prefix_rfl⟩
    ⟨_, rfl, List.prefix_rfl⟩

def rawKeyHeader : RawHeader := ⟨[], [], 3, 1, 2, [1#8], [2#8], [3#8], [4#8], [5#8], [6#8]⟩

example : parseZKey circomEnv circomTypes (file [0x7a#8, 0x6b#8, 0x65#8, 0x79#8] 1
      [(1, digits 4 1), (2, rawKeyHeader.enc), (3, [1#8, 2#8]), (4, digits 4 1 ++ [RawCoeff.mk 0 1 2 [9#8]].flatMap RawCoeff.enc),
        (5, [1#8, 2#8, 3#8]), (6, [4#8, 5#8, 6#8]), (7, [7#8, 8#8, 9#8]), (8, [10#8]), (9, [11#8, 12#8])]) =
    some (some ⟨⟨[], [], 3, 1, 2, 1, 2, 3, 4, 5, 6⟩, [1, 2], [⟨0, 1, 2, 9⟩], [1, 2, 3], [4, 5, 6], [7, 8, 9], [10], [11, 12]⟩) :=
  C98_zkey_file (ty := circomTypes) rfl (by decide) (by decide) (by decide) (by decide) ⟨by decide, by decide, by decide +kernel⟩
    (hd := rawKeyHeader) ⟨⟨by decide, by decide⟩, ⟨by decide, by decide⟩, by decide, by decide, by decide, rfl, rfl, rfl, rfl, rfl, rfl⟩
    (cs := [⟨0, 1, 2, [9#8]⟩]) (by unfold RawCoeff.Ok; decide) (by decide) (k := 1) rfl (ic := [[1#8], [2#8]])
    (a1 := [[1#8], [2#8], [3#8]]) (b1 := [[4#8], [5#8], [6#8]]) (b2 := [[7#8], [8#8], [9#8]]) (c1 := [[10#8]]) (h1 := [[11#8], [12#8]])
    (by decide) (by decide) (by decide) (by decide) (by decide) (by decide) rfl rfl rfl rfl rfl rfl
    ⟨_, rfl, List.prefix_rfl⟩ ⟨_, rfl, List.prefix_rfl⟩ ⟨_, rfl, List.prefix_rfl⟩ ⟨_, rfl, List.prefix_rfl⟩ ⟨_, rfl, List.prefix_rfl⟩
    ⟨_, rfl, List.prefix_rfl⟩ ⟨_, rfl, List.prefix_rfl⟩ ⟨_, rfl, List.prefix_rfl⟩ ⟨_, rfl, List.prefix_rfl⟩

/-- A file of the wrong version gives a null pointer, one without sections ends the program. -/
example : parseWtns circomEnv circomTypes [0x77#8, 0x74#8, 0x6e#8, 0x73#8, 1#8, 0, 0, 0] = some none :=
  (C98_nullptr (ty := circomTypes) rfl (by decide)).1.2 (by decide)

example : parseWtns circomEnv circomTypes [0x77#8, 0x74#8, 0x6e#8, 0x73#8, 2#8, 0, 0, 0] = none := by decide +kernel

end Tachyon.Props
