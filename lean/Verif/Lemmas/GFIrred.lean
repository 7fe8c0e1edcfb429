/-
Irreducibility of X^128 + X^7 + X^2 + X + 1 over F_2 (Rabin's test; the computation is done by the
kernel on bit strings with the model's own `gfmulN`).
-/
import Verif.Lemmas.Clmul
import Mathlib.FieldTheory.Finite.Extension

namespace EmpZk
open Polynomial

/-- One certified squaring step: `a * a = b + gfPoly * q` as bit strings. -/
def sqOk (a q b : Nat) : Bool :=
  Nat.beq (clmulN a a 128 ^^^ clmulN gfPoly q 128) b && Nat.blt a (2^128) && Nat.blt q (2^128)

/-- Follow a list of certified squaring steps. -/
def chainEnd : Nat → List (Nat × Nat) → Option Nat
  | a, [] => some a
  | a, (q, b) :: l => if sqOk a q b then chainEnd b l else none

/-- Certificates for X^(2^1) … X^(2^64). -/
def chain1 : List (Nat × Nat) := [
  (0x0, 0x4),
  (0x0, 0x10),
  (0x0, 0x100),
  (0x0, 0x10000),
  (0x0, 0x100000000),
  (0x0, 0x10000000000000000),
  (0x1, 0x87),
  (0x0, 0x4015),
  (0x0, 0x10000111),
  (0x0, 0x100000000010101),
  (0x0, 0x10000000000000000000100010001),
  (0x1000000000000000000000000, 0x87000000010000000100000001),
  (0x40150000000000000001, 0x21caea0000000000000086),
  (0x40150445444, 0x21cae93f7cfc8),
  (0x0, 0x4015044544105551550555040),
  (0x100001110010101110, 0x1001001111110961118fe6196978ef70),
  (0x1000001000001010101010100411401, 0x860140d2541486c693c692c775187987),
  (0x40140001100051041110011040145035, 0x8b69509b312d6501ea618e11df04ea1e),
  (0x40451441110041450501045114110020, 0xb715594eb7756558cad0352d30b311b4),
  (0x45150111114110544515151114111163, 0x1afdeffd35e5fde54e1a6f865fe82b9),
  (0x14455515455555105115411555154, 0x11b4a30358935542218289f09c0659ed),
  (0x1014510440500051140410511111004, 0x83a513579eda579397b14587eebe264d),
  (0x40054411010511154154514411154124, 0x83ad91f69582bddf38d15180f9de45ad),
  (0x40054451410155144111400445515174, 0xc7f8a41756ad614d1a97936b620f481d),
  (0x50155540441001151114445114011078, 0xbb844bf6957599a6e94bf5687ccf4c39),
  (0x45454010104555144111151141414437, 0x2c3bd83d0661350d5aadb3837634c244),
  (0x4500545514005510014140105110053, 0x24f6fc2353c7f2321f726995c3f33829),
  (0x4105514555004051105501555040506, 0x150e344316f35f82a5b7efc52c5e9c53),
  (0x1110054051010050114550511554004, 0xcbe66ebbc72d228a891738c79d5ad319),
  (0x5045541414544545501504510404406d, 0xd331a77342cf2867fbb824714f38f6c2),
  (0x5105050144151505100450550440143c, 0x60dcdee4d2f1fc9262609e6968de22b0),
  (0x1400515051545410510455015550410e, 0x782d0a995dd3b01821777af80695052a),
  (0x1540045100444141115151054500014a, 0xcec3202236b9330fde0a74a95b11a7b2),
  (0x5054500504000404051445410505007c, 0xcad1b2dd09125a5f800a7b44dd8e7a70),
  (0x5044510145045151004101041144117c, 0xd3f537e04c700e277016c540c190dd74),
  (0x5105551105155400105015000054043c, 0x20b022e1c1d1bc0809bbaa007aff17a4),
  (0x4004500040454015001510145500042, 0x1c621e475a73acaea5ea62f173a564de),
  (0x1501404015410151144150544504454, 0xeaab3a58b8a02fe2c1d3ada9e183a6f8),
  (0x5444444505441140454044000455542f, 0xdffeae5cfc8592a22ee29c077314ee0d),
  (0x5155555444541150555040114104442d, 0x1854548bb6f4de8e1794c9c6116bca12),
  (0x1401110111040454514551051544054, 0xa7ddbe68af10b36c5046371c4cc9eaa8),
  (0x44155151455414404455010045051473, 0xc7c20e0075b34cb3e77bd7620dd51099),
  (0x5015500400540000151145051050452c, 0xeed7a7597ab9140ee385088258930c85),
  (0x5454511544151141154445410110007f, 0xd3807dd9d6a39649d9bf3b428f207eec),
  (0x51054000155151415114440541141068, 0x64fb855fc75b066a7d1adaba58301148),
  (0x1410554540111155501511450014144e, 0x710a093e99bb9946aba3d15b0b675aaa),
  (0x1501004400410554414145454141101e, 0xafc267d97044a1c866216c6f770b3b1e),
  (0x44555004141551411500101044015063, 0xe316b61772920218fe1d7816d9eb81fd),
  (0x5405011445140115150441040004016b, 0xfbcf8c1e442c8cf5b87c1159421de6c0),
  (0x5545505540500154101004504050553a, 0x4d328e5ae8b1bde5687634c0bd8f66a6),
  (0x10510504405411445440450145515419, 0x4d758c29eeb484f7c8b21bf16608e4db),
  (0x1051151140500441545445104010551d, 0x97da6d2e8f7686d939b53119c4b7496),
  (0x411551441451045440551514401451, 0x60488351c7403436ccbb31a458da0423),
  (0x1400104040051101501510000510051e, 0x3c5814a4c792b3beaba321469362905f),
  (0x5501140011044105015410445054556, 0xf6fd92c58b52c44dfbcf513b18b860f7),
  (0x5514555141045011404511045010107a, 0x740252435434bd93e213b075ac781973),
  (0x1510000411041005111005104551410f, 0xb7740311b0146782bb228613735755a8),
  (0x45151510000501014500011014154027, 0x14a4e774428f86a14e059e6f77db9735),
  (0x1104410541515101004405540144401, 0x9f07d44ae7b5f72d6728ba4f8b5ad996),
  (0x41550015511010445415451155150470, 0x783e0e827a3c43a2e68d429870a86444),
  (0x1540055400544004154405501005440e, 0x9ed6f0fd3b898356dddef6f866a8cb3a),
  (0x41545114550055510545404140051135, 0x3dd46c137e3f5775ac6ea52692d6e84f),
  (0x5515110145001051554055511151513, 0xf64e2b2e01a1818581aae137a9a1f2ac),
  (0x5514105404450454000144014001403a, 0x61651fea6b5832b944e598a795a299f6)]

/-- Certificates for X^(2^65) … X^(2^128). -/
def chain2 : List (Nat × Nat) := [
  (0x1401141101555444144511400504454b, 0x7c9d30e6ed40cbc30e4292c6d87e2a65),
  (0x1550415105005414545110005045500f, 0xc2c57e31da2ff653d47f657d9736a3bc),
  (0x5004501115540501514404555514112c, 0xe325ada8d4bf8eff55cb32146561a494),
  (0x5405041144514440511045554054557e, 0xbf884491f010fcf92b42640baf97546a),
  (0x45554040101041015500010055505562, 0x744ff1cc6c4147e96f55c63e138b0f6a),
  (0x1510105555015050145010011015544b, 0xf72d4a117bba9cee44bd30ca7a959c35),
  (0x5515045110440101154545444150547f, 0x31f9706e56dcd7c9dd3c39ec2fcb97ec),
  (0x5015541150014541114515051155043, 0xcafd0f1dee4b13f4f9104edc7cd7c419),
  (0x50445551005501515454104501055539, 0xc6b603373b7fff4c92f4024ed5a0366e),
  (0x50144514000505150545155555551079, 0xfb4b047c029d81bde9408400053759bb),
  (0x5545104500101550000441514001457a, 0x5c12435b486ac2b0022c6b03d1e52223),
  (0x11500104100511451040144450044508, 0xdeb4814466d6d45600cb1be4b63b5b3d),
  (0x5154451040011010141451145110113d, 0x1c8f0314c1ca2c6a235138002e3dec62),
  (0x1504055000501105001504404501444, 0xaa94fa2a07db8f59b4fa968f61ea5bd8),
  (0x44444110554404440015514540551162, 0xbaed1a1f49ca7f891ec3403efa66966e),
  (0x45445451014401551041504415554062, 0x79a3d532b4dca977042a87c2811ee47a),
  (0x1541440551110504451051504441151f, 0xca74daf67fe0c93b13581fc7a95df199),
  (0x5044151051445514155554005041056c, 0x92d3f21915a271738441bd78c444ed45),
  (0x41045105550401410111440415011524, 0x52525b16c4db307dfc4ce06bfdce9ed),
  (0x110411041145011450105145050015, 0x59a044e544805b9900ed08440dda5eba),
  (0x11414400101054111010400011454149, 0xd6648859781bb4ef7800914cc52e273b),
  (0x5114141040401141154001454510547c, 0x28266451a0c9c61d9ad1a02c574e9631),
  (0x4400414141011014400504150140153, 0x7c8647672078f3f4cd3c813afb78aa38),
  (0x1550401410151415040015405505551a, 0x92c0cf343ae063ad494fdfab6df42306),
  (0x41045000505505100544540014054470, 0x5574a07cca7cd737aca6f91a6abde544),
  (0x1111151044001550504415505115051d, 0xbbada747894bc3dd879287c869f885c3),
  (0x45454451441510154041104550055172, 0x386db41096f62a8af50e0632f2a35f5b),
  (0x5401451451001004114551404444046, 0xefdb4540536482251843656b2ea8f397),
  (0x5455514510111000110514104004043a, 0x864204566cee644df1c52011971b40b3),
  (0x40141004001011141450545414101070, 0x9f65220d0c78fc67048e86e374780c55),
  (0x41551411040400510050154055501434, 0x6c3124a15e087d323caadfab02ea679d),
  (0x1450050104104401115400401551050e, 0x40e2dfc1450698cadca8758ed620dd7b),
  (0x1000540451555001101100144140504c, 0x217bea750913f0db29e30e4d37b882a1),
  (0x4011545544415110041010555005147, 0x18cc9c758f82f3a62452c0f06b2d5154),
  (0x1405050415015114055400455054414, 0xa2f988953ebab6d6ff4fc66638b9c77c),
  (0x44045541404041110554454445145137, 0x8b621a33b1f55be1b5cf3dbe01503955),
  (0x40451404014405054501551111455420, 0xa6403e49a18fdcec5bad32ffd131adf1),
  (0x44141000055410414401405551505473, 0xc7213453b5a004318da7ee035acac1d8),
  (0x50150401051011054511440000100528, 0xfab85890c72cf5bd42908c445873de98),
  (0x5544454011404100501504505511457a, 0x18fb3bc896b15739aba9209e72802626),
  (0x1405545054550404114450111150541, 0xe2ae4c18bc72d0b5584b1b8ff9fdbe53),
  (0x5404445410500140455015045100453a, 0xbf7fe7e158f5e6b627fbbc64727757a3),
  (0x45551555541554011140551154144537, 0x74349545e390b89fc3ef36c9b75a0400),
  (0x1510051041111011540541004540415f, 0xb377c7044aeb289debaf56677af1691d),
  (0x45051515501500101044544504404172, 0xdd4a597abff1c6d46b3da5829a07e0f),
  (0x515110441141154445555501501451, 0x390a7a5685925c88fb31442bbbee4562),
  (0x5410044154411144011410411504042, 0xef0226d7d8c4f9088d931140ce80f4ca),
  (0x5455000404145115514050105541006b, 0xc77a431b17442dc246bdf85b5f5764d5),
  (0x5015154410050145011510100451502d, 0xaaf58d8527dbb51e9cb66967210ef752),
  (0x44445511405140110415514545110177, 0xbea766c2fd57dce012c3142c06e2acc1),
  (0x45544415141450045551111551505423, 0x718b86e46755b667022ba9c65acbed68),
  (0x1501404540145410141511114514141f, 0xeba2e73f8e06f46e77a7af910537779d),
  (0x5445440454150555405400145510147f, 0x9a6d9a22e2bcf10bebbd0f52366f13ac),
  (0x41441451414404045404455055010064, 0x30930047648b0f33ab2b66ce2a82776c),
  (0x5004105000010151410404500550507, 0xdf6441de141c2ab56015a35f3e3c8cc5),
  (0x51551410100151540110015004444538, 0x821656934ab0df98a24abe27faf17b9),
  (0x400401141114410510444500515541, 0x6186189d20b819418606bb0e28094f06),
  (0x1401401401404151040045400141100b, 0x2cb2ca78e3a46e6118637a81b61a75a5),
  (0x4504504504415405405441014541403, 0x34d34d3086928aeaebacd53e52b72998),
  (0x5105105105105004014410440445446, 0xc71c71c308249e75db490028e7b6cf92),
  (0x50150150150150050040041041541538, 0xebaebefbebaeb6db75d751453cf3b6ac),
  (0x5445445445545545544544544514516e, 0x9a69a69a618618618a28a28a1451455a),
  (0x41441441441441441401401401401420, 0x24924924924924926db6db6db6db6da4),
  (0x4104104104104104104104104104106, 0x2)]

/-- X^(2^64) reduced. -/
def frob64 : Nat := 0x61651fea6b5832b944e598a795a299f6

theorem chain1_ok : chainEnd 2 chain1 = some frob64 := by decide +kernel
theorem chain2_ok : chainEnd frob64 chain2 = some 2 := by decide +kernel

/-- The reduction polynomial. -/
noncomputable def gfP : (ZMod 2)[X] := toPoly gfPoly

theorem toPoly_two : toPoly 2 = X := by
  have := toPoly_two_pow 1
  rwa [pow_one, pow_one] at this

theorem gfPoly_val : gfPoly = 2^128 ^^^ (2^7 ^^^ (2^2 ^^^ (2^1 ^^^ 1))) := by decide +kernel

theorem gfP_eq : gfP = X^128 + (X^7 + (X^2 + (X + 1))) := by
  have h1 := toPoly_two_pow 128
  have h2 := toPoly_two_pow 7
  have h3 := toPoly_two_pow 2
  have h4 := toPoly_two_pow 1
  rw [gfP, gfPoly_val, toPoly_xor, toPoly_xor, toPoly_xor, toPoly_xor, h1, h2, h3, h4, toPoly_one,
    pow_one]

theorem gfP_def : gfP = toPoly gfPoly := rfl

attribute [irreducible] gfP frob64

theorem dvd_sq_step {R : Type} [CommRing R] (f a b x : R) (h : f ∣ a - x) (h' : f ∣ b - a * a) :
    f ∣ b - x * x := by
  have : b - x * x = (b - a * a) + (a - x) * (a + x) := by ring
  rw [this]
  exact dvd_add h' (Dvd.dvd.mul_right h _)

theorem dvd_step {R : Type} [CommRing R] (f a q b : R) (h : a + f * q = b) : f ∣ b - a :=
  ⟨q, by rw [← h]; ring⟩

theorem xor_clmul_spec (f a q b n : Nat) (h1 : clmulN a a n ^^^ clmulN f q n = b)
    (h2 : a < 2^n) (h3 : q < 2^n) : toPoly f ∣ toPoly b - toPoly a * toPoly a := by
  have h := congrArg toPoly h1
  rw [toPoly_xor, toPoly_clmulN _ _ _ h2, toPoly_clmulN _ _ _ h3] at h
  exact dvd_step _ _ _ _ h

theorem sqOk_spec {a q b : Nat} (h : sqOk a q b = true) :
    gfP ∣ toPoly b - toPoly a * toPoly a := by
  unfold sqOk at h
  rw [Bool.and_eq_true, Bool.and_eq_true] at h
  obtain ⟨⟨h1, h2⟩, h3⟩ := h
  rw [gfP_def]
  exact xor_clmul_spec gfPoly a q b 128 (Nat.eq_of_beq_eq_true h1) (by rwa [Nat.blt_eq] at h2)
    (by rwa [Nat.blt_eq] at h3)

theorem chainEnd_spec (l : List (Nat × Nat)) (a e k : Nat) (h : chainEnd a l = some e)
    (ha : gfP ∣ toPoly a - X ^ (2^k)) : gfP ∣ toPoly e - X ^ (2^(k + l.length)) := by
  induction l generalizing a k with
  | nil =>
    simp only [chainEnd, Option.some.injEq] at h
    rw [← h]; exact ha
  | cons c l ih =>
    obtain ⟨q, b⟩ := c
    rw [chainEnd] at h
    by_cases hs : sqOk a q b = true
    · rw [if_pos hs] at h
      have hb : gfP ∣ toPoly b - X ^ (2^(k+1)) := by
        have e : (X : (ZMod 2)[X]) ^ (2^(k+1)) = X^(2^k) * X^(2^k) := by
          rw [← pow_add, pow_succ]; congr 1; omega
        rw [e]
        exact dvd_sq_step _ _ _ _ ha (sqOk_spec hs)
      have := ih b (k+1) h hb
      rw [List.length_cons, show k + (l.length + 1) = k + 1 + l.length by omega]
      exact this
    · rw [if_neg hs] at h; exact absurd h (by simp)

theorem gfP_dvd_frob64 : gfP ∣ toPoly frob64 - X ^ (2^64) := by
  have h := chainEnd_spec chain1 2 frob64 0 chain1_ok (by rw [toPoly_two]; simp)
  have hl : 0 + chain1.length = 64 := by decide +kernel
  rwa [hl] at h

theorem gfP_dvd_frob128 : gfP ∣ X - X ^ (2^128) := by
  have h := chainEnd_spec chain2 frob64 2 64 chain2_ok gfP_dvd_frob64
  have hl : 64 + chain2.length = 128 := by decide +kernel
  rwa [hl, toPoly_two] at h

theorem bezout_bits :
    clmulN gfPoly 0x34f319a5fb685836214ec51f73e3547b 128 ^^^
      clmulN (frob64 ^^^ 2) 0x9e4af928ddbc838a41a8cafd2c95b018 128 = 1 := by
  decide +kernel

theorem bezout_spec (f u r v n : Nat) (h : clmulN f u n ^^^ clmulN (r ^^^ 2) v n = 1)
    (hu : u < 2^n) (hv : v < 2^n) :
    toPoly f * toPoly u + (toPoly r + X) * toPoly v = 1 := by
  have h := congrArg toPoly h
  rwa [toPoly_xor, toPoly_clmulN _ _ _ hu, toPoly_clmulN _ _ _ hv,
    toPoly_xor, toPoly_one, toPoly_two] at h

theorem bezout_poly : ∃ u v : (ZMod 2)[X], gfP * u + (toPoly frob64 + X) * v = 1 := by
  rw [gfP_def]
  exact ⟨_, _, bezout_spec gfPoly _ frob64 _ 128 bezout_bits (by decide +kernel) (by decide +kernel)⟩

theorem gfP_monic_natDegree : gfP.Monic ∧ gfP.natDegree = 128 := by
  have hd : (X^7 + (X^2 + (X + 1)) : (ZMod 2)[X]).degree < (128 : Nat) := by
    refine lt_of_le_of_lt (b := ((7 : Nat) : WithBot Nat)) ?_ (by norm_cast)
    rw [← natDegree_le_iff_degree_le]
    compute_degree
  have hm : gfP.Monic := by rw [gfP_eq]; exact monic_X_pow_add hd
  refine ⟨hm, ?_⟩
  rw [gfP_eq]
  apply natDegree_eq_of_degree_eq_some
  rw [degree_add_eq_left_of_degree_lt]
  · exact degree_X_pow 128
  · rw [degree_X_pow]; exact hd

/-- Rabin's irreducibility test over F_2 for degrees that are powers of two. -/
theorem rabin_two (f r u v : (ZMod 2)[X]) (a d e : Nat) (hd : d = 2^(a+1)) (he : e = 2^a)
    (hm : f.Monic) (hdeg : f.natDegree = d) (h128 : f ∣ X - X ^ (2^d))
    (h64 : f ∣ r - X ^ (2^e)) (huv : f * u + (r + X) * v = 1) : Irreducible f := by
  have h128 : f ∣ X ^ (2^d) - X := by rw [← dvd_neg, neg_sub]; exact h128
  have hd0 : d ≠ 0 := by rw [hd]; positivity
  have hnu : ¬ IsUnit f := by
    intro h
    have := natDegree_eq_zero_of_isUnit h
    omega
  obtain ⟨g, hg, hgd⟩ := WfDvdMonoid.exists_irreducible_factor hnu hm.ne_zero
  have hcard : Nat.card (ZMod 2) = 2 := by simp
  have hd1 : g.natDegree ∣ d := by
    apply hg.natDegree_dvd_of_dvd_X_pow_card_pow_sub_X
    rw [hcard]; exact dvd_trans hgd h128
  have hd2 : ¬ g.natDegree ∣ e := by
    intro h
    rw [hg.natDegree_dvd_iff_dvd_X_pow_card_pow_sub_X, hcard] at h
    have h2 := dvd_trans hgd h64
    have h3 : g ∣ r + X := by
      have : r + X = (r - X ^ (2^e)) + (X ^ (2^e) - X) + (X + X) := by ring
      rw [this, two_zmod2_poly, add_zero]
      exact dvd_add h2 h
    apply hg.not_isUnit
    apply isUnit_of_dvd_one
    rw [← huv]
    exact dvd_add (Dvd.dvd.mul_right hgd _) (Dvd.dvd.mul_right h3 _)
  have hd3 : g.natDegree = d := by
    rw [hd] at hd1
    obtain ⟨k, hk, hk'⟩ := (Nat.dvd_prime_pow Nat.prime_two).1 hd1
    by_cases h7 : k = a + 1
    · rw [hk', h7, hd]
    · exfalso
      apply hd2
      rw [hk', he]
      exact pow_dvd_pow 2 (by omega)
  obtain ⟨q, hq⟩ := hgd
  have hq0 : q ≠ 0 := by
    intro h; rw [h, mul_zero] at hq; exact hm.ne_zero hq
  have hqd : q.natDegree = 0 := by
    have := natDegree_mul hg.ne_zero hq0
    rw [← hq, hdeg, hd3] at this
    omega
  have hqu : IsUnit q := by
    rw [eq_C_of_natDegree_eq_zero hqd] at hq0 ⊢
    rw [isUnit_C, isUnit_iff_ne_zero]
    intro h; rw [h, C_0] at hq0; exact hq0 rfl
  rw [hq]
  exact (irreducible_mul_isUnit hqu).2 hg

theorem gfP_irreducible : Irreducible gfP := by
  obtain ⟨hm, hdeg⟩ := gfP_monic_natDegree
  obtain ⟨u, v, huv⟩ := bezout_poly
  exact rabin_two gfP (toPoly frob64) u v 6 128 64 (by norm_num) (by norm_num) hm hdeg
    gfP_dvd_frob128 gfP_dvd_frob64 huv

end EmpZk
