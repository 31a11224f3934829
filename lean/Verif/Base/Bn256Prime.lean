import Verif.Base.Pratt
import Mathlib.Tactic.NormNum.Prime

/-! Primality of the order of the BN254 scalar field (Pratt certificate). -/

namespace Base.Bn256

open Pratt

theorem prime_5501 : Nat.Prime 5501 :=
  prime_of_check 5501 2 [(2, 2), (5, 3), (11, 1)] (by decide +kernel) (by
    simp only [List.mem_cons, List.not_mem_nil, or_false, forall_eq_or_imp, forall_eq]
    exact ⟨(by norm_num), (by norm_num), (by norm_num)⟩)

theorem prime_11003 : Nat.Prime 11003 :=
  prime_of_check 11003 2 [(2, 1), (5501, 1)] (by decide +kernel) (by
    simp only [List.mem_cons, List.not_mem_nil, or_false, forall_eq_or_imp, forall_eq]
    exact ⟨(by norm_num), prime_5501⟩)

theorem prime_237073 : Nat.Prime 237073 :=
  prime_of_check 237073 15 [(2, 4), (3, 1), (11, 1), (449, 1)] (by decide +kernel) (by
    simp only [List.mem_cons, List.not_mem_nil, or_false, forall_eq_or_imp, forall_eq]
    exact ⟨(by norm_num), (by norm_num), (by norm_num), (by norm_num)⟩)

theorem prime_3691 : Nat.Prime 3691 :=
  prime_of_check 3691 2 [(2, 1), (3, 2), (5, 1), (41, 1)] (by decide +kernel) (by
    simp only [List.mem_cons, List.not_mem_nil, or_false, forall_eq_or_imp, forall_eq]
    exact ⟨(by norm_num), (by norm_num), (by norm_num), (by norm_num)⟩)

theorem prime_4999 : Nat.Prime 4999 :=
  prime_of_check 4999 3 [(2, 1), (3, 1), (7, 2), (17, 1)] (by decide +kernel) (by
    simp only [List.mem_cons, List.not_mem_nil, or_false, forall_eq_or_imp, forall_eq]
    exact ⟨(by norm_num), (by norm_num), (by norm_num), (by norm_num)⟩)

theorem prime_405928799 : Nat.Prime 405928799 :=
  prime_of_check 405928799 22 [(2, 1), (11, 1), (3691, 1), (4999, 1)] (by decide +kernel) (by
    simp only [List.mem_cons, List.not_mem_nil, or_false, forall_eq_or_imp, forall_eq]
    exact ⟨(by norm_num), (by norm_num), prime_3691, prime_4999⟩)

theorem prime_93001 : Nat.Prime 93001 :=
  prime_of_check 93001 14 [(2, 3), (3, 1), (5, 3), (31, 1)] (by decide +kernel) (by
    simp only [List.mem_cons, List.not_mem_nil, or_false, forall_eq_or_imp, forall_eq]
    exact ⟨(by norm_num), (by norm_num), (by norm_num), (by norm_num)⟩)

theorem prime_12048837557 : Nat.Prime 12048837557 :=
  prime_of_check 12048837557 2 [(2, 2), (7, 2), (661, 1), (93001, 1)] (by decide +kernel) (by
    simp only [List.mem_cons, List.not_mem_nil, or_false, forall_eq_or_imp, forall_eq]
    exact ⟨(by norm_num), (by norm_num), (by norm_num), prime_93001⟩)

theorem prime_5156902474397 : Nat.Prime 5156902474397 :=
  prime_of_check 5156902474397 2 [(2, 2), (107, 1), (12048837557, 1)] (by decide +kernel) (by
    simp only [List.mem_cons, List.not_mem_nil, or_false, forall_eq_or_imp, forall_eq]
    exact ⟨(by norm_num), (by norm_num), prime_12048837557⟩)

theorem prime_1670836401704629 : Nat.Prime 1670836401704629 :=
  prime_of_check 1670836401704629 2 [(2, 2), (3, 4), (5156902474397, 1)] (by decide +kernel) (by
    simp only [List.mem_cons, List.not_mem_nil, or_false, forall_eq_or_imp, forall_eq]
    exact ⟨(by norm_num), (by norm_num), prime_5156902474397⟩)

theorem prime_20963 : Nat.Prime 20963 :=
  prime_of_check 20963 2 [(2, 1), (47, 1), (223, 1)] (by decide +kernel) (by
    simp only [List.mem_cons, List.not_mem_nil, or_false, forall_eq_or_imp, forall_eq]
    exact ⟨(by norm_num), (by norm_num), (by norm_num)⟩)

theorem prime_41927 : Nat.Prime 41927 :=
  prime_of_check 41927 5 [(2, 1), (20963, 1)] (by decide +kernel) (by
    simp only [List.mem_cons, List.not_mem_nil, or_false, forall_eq_or_imp, forall_eq]
    exact ⟨(by norm_num), prime_20963⟩)

theorem prime_1593227 : Nat.Prime 1593227 :=
  prime_of_check 1593227 2 [(2, 1), (19, 1), (41927, 1)] (by decide +kernel) (by
    simp only [List.mem_cons, List.not_mem_nil, or_false, forall_eq_or_imp, forall_eq]
    exact ⟨(by norm_num), (by norm_num), prime_41927⟩)

theorem prime_1637 : Nat.Prime 1637 :=
  prime_of_check 1637 2 [(2, 2), (409, 1)] (by decide +kernel) (by
    simp only [List.mem_cons, List.not_mem_nil, or_false, forall_eq_or_imp, forall_eq]
    exact ⟨(by norm_num), (by norm_num)⟩)

theorem prime_639533339 : Nat.Prime 639533339 :=
  prime_of_check 639533339 2 [(2, 1), (229, 1), (853, 1), (1637, 1)] (by decide +kernel) (by
    simp only [List.mem_cons, List.not_mem_nil, or_false, forall_eq_or_imp, forall_eq]
    exact ⟨(by norm_num), (by norm_num), (by norm_num), prime_1637⟩)

theorem prime_65865678001877903 : Nat.Prime 65865678001877903 :=
  prime_of_check 65865678001877903 5 [(2, 1), (83, 1), (379, 1), (1637, 1), (639533339, 1)] (by decide +kernel) (by
    simp only [List.mem_cons, List.not_mem_nil, or_false, forall_eq_or_imp, forall_eq]
    exact ⟨(by norm_num), (by norm_num), (by norm_num), prime_1637, prime_639533339⟩)

theorem prime_13818364434197438864469338081 : Nat.Prime 13818364434197438864469338081 :=
  prime_of_check 13818364434197438864469338081 3 [(2, 5), (5, 1), (823, 1), (1593227, 1), (65865678001877903, 1)] (by decide +kernel) (by
    simp only [List.mem_cons, List.not_mem_nil, or_false, forall_eq_or_imp, forall_eq]
    exact ⟨(by norm_num), (by norm_num), (by norm_num), prime_1593227, prime_65865678001877903⟩)

theorem prime_r : Nat.Prime 21888242871839275222246405745257275088548364400416034343698204186575808495617 :=
  prime_of_check 21888242871839275222246405745257275088548364400416034343698204186575808495617 5 [(2, 28), (3, 2), (13, 1), (29, 1), (983, 1), (11003, 1), (237073, 1), (405928799, 1), (1670836401704629, 1), (13818364434197438864469338081, 1)] (by decide +kernel) (by
    simp only [List.mem_cons, List.not_mem_nil, or_false, forall_eq_or_imp, forall_eq]
    exact ⟨(by norm_num), (by norm_num), (by norm_num), (by norm_num), (by norm_num), prime_11003, prime_237073, prime_405928799, prime_1670836401704629, prime_13818364434197438864469338081⟩)

end Base.Bn256
