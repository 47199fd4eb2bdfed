"""Generates lean/Verif/Problems/HartmannCert.lean: trees of splits of the four quadratic exponents of the Hartmann functions.
The trees are untrusted; they are checked by `Verif.Problems.check` in the Lean kernel."""
K = 2 ** 13
S = 2 ** 60
R0 = None


def mul_up(a, b):
    return a * b // S + 1


def first():
    # S * (1 - h + h^2/2 - h^3/6 + h^4/24) rounded up, h = 1/K
    num = 24 * K ** 4 - 24 * K ** 3 + 12 * K ** 2 - 4 * K + 1
    return S * num // (24 * K ** 4) + 1


R0 = first()


def exp_up(k, fuel=20):
    if fuel == 0 or k == 0:
        return S
    e = exp_up(k // 2, fuel - 1)
    e2 = mul_up(e, e)
    return e2 if k % 2 == 0 else mul_up(e2, R0)


def line(l, u):
    el = exp_up(l)
    if u is None:
        return el, 0
    eu = exp_up(u)
    b = (el - eu) // (u - l) if el >= eu else 0
    return max(el + b * l, eu + b * u), b


H3 = dict(name="hartmann3Tree", A=[[3, 10, 30], [0.1, 10, 35], [3, 10, 30], [0.1, 10, 35]],
          P=[[3689, 1170, 2673], [4699, 4387, 7470], [1091, 8732, 5547], [381, 5743, 8828]], M=386278)
H6 = dict(name="hartmann6Tree",
          A=[[10, 3, 17, 3.5, 1.7, 8], [0.05, 10, 17, 0.1, 8, 14], [3, 3.5, 1.7, 10, 17, 8], [17, 8, 0.05, 10, 0.1, 14]],
          P=[[1312, 1696, 5569, 124, 8283, 5886], [2329, 4135, 8307, 3736, 1004, 9991],
             [2348, 1451, 3522, 2883, 3047, 6650], [4047, 8828, 8732, 5743, 1091, 381]], M=332237)
AL = [10, 12, 30, 32]


def leaf_ok(H, c):
    L = [line(*iv) for iv in c]
    lhs = 2 * 10 ** 9 * sum(AL[i] * L[i][0] for i in range(4))
    tot = 0
    for j in range(len(H["A"][0])):
        w = [AL[i] * L[i][1] * round(20 * H["A"][i][j]) for i in range(4)]
        p = [H["P"][i][j] for i in range(4)]
        s0 = sum(w)
        s1 = sum(a * b for a, b in zip(w, p))
        s2 = sum(a * b * b for a, b in zip(w, p))
        d = s1 * s1 // s0 + 1 if s0 else 1
        tot += max(s2 - d, 0)
    return lhs <= 2 * 10 ** 10 * S * H["M"] // 10 ** 5 + K * tot


def err(i, l, u):
    import math
    el = math.exp(-l / K)
    if u is None:
        return AL[i] * el
    w = (u - l) / K
    b = (el - math.exp(-u / K)) / w
    t = -math.log(b)
    return AL[i] * (el - b * (t - l / K) - b)


def build(H, c, cnt):
    cnt[0] += 1
    if leaf_ok(H, c):
        return "l"
    i = max((i for i in range(4) if c[i][1] is None or c[i][1] - c[i][0] > 1), key=lambda i: err(i, *c[i]))
    l, u = c[i]
    m = l + 2 * K if u is None else (l + u) // 2
    a = list(c)
    a[i] = (l, m)
    b = list(c)
    b[i] = (m, u)
    return "(n %d %d %s %s)" % (i, m, build(H, a, cnt), build(H, b, cnt))


def main():
    import os
    import sys
    sys.setrecursionlimit(10000)
    out = ["import Verif.Problems.Hartmann", "",
           "/-! # Certificates for the Hartmann functions (generated by tools/hartmann_cert.py, checked by the kernel) -/", "",
           "namespace Verif.Problems", "", "open Tree", ""]
    for H in (H3, H6):
        cnt = [0]
        t = build(H, [(0, None)] * 4, cnt)
        print(H["name"], cnt)
        body = []
        cur = " "
        for w in t.split(" "):
            if len(cur) + len(w) > 110:
                body.append(cur)
                cur = " "
            cur += " " + w
        body.append(cur)
        out += ["/-- Splits of the exponents (untrusted). -/", "def %s : Tree :=" % H["name"]] + body + [""]
    out += ["end Verif.Problems", ""]
    p = os.path.join(os.path.dirname(os.path.abspath(__file__)), "..", "lean", "Verif", "Problems", "HartmannCert.lean")
    open(p, "w").write("\n".join(out))


main()
