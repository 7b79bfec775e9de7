{
 "C06": {
  "status": "proved",
  "note": "The unconditional documentation claim is refuted (C06_qb2_not_orthonormal); the exact condition is proved."
 },
 "C13": {
  "status": "proved",
  "note": "Documented bound proved up to an absolute term 10*eps*min(m,n); C13_svd1_tolerance_false shows the term cannot be dropped."
 },
 "C15": {
  "status": "proved",
  "note": "Documented bound proved up to an absolute term 10*eps*sqrt(n); C15_evd1_tolerance_false shows the term cannot be dropped."
 },
 "C17": {
  "status": "proved",
  "note": "Exact count proved; it contradicts the documented min(k, rank A) (C17_evd2_rank_false)."
 },
 "C24": {
  "status": "proved",
  "note": "Exact counts proved; cur1 deviates from its documentation."
 }
}